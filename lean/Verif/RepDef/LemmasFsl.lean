import Verif.RepDef.LemmasPages
/-!
# Lemmas on levels: fixed size lists
-/
namespace Verif.RepDef
open Verif.Mini (Layer RepDefs)

/-! ### Groups -/

theorem groups_length {A : Type} (d : Nat) : ∀ (n : Nat) (l : List A), (groups d n l).length = n
  | 0, _ => rfl
  | n + 1, l => by simp [groups, groups_length d n]

theorem groups_map {A B : Type} (f : A → B) (d : Nat) : ∀ (n : Nat) (l : List A), groups d n (l.map f) = (groups d n l).map (List.map f)
  | 0, _ => rfl
  | n + 1, l => by rw [groups, groups, ← List.map_drop, groups_map f d n, ← List.map_take, List.map_cons]

theorem groups_take {A : Type} (a : Nat) : ∀ (j k : Nat) (l : List A), (groups a (k + j) l).take j = groups a j (l.take (j * a))
  | 0, _, _ => by simp [groups]
  | j + 1, k, l => by
    rw [← Nat.add_assoc, groups, groups, List.take_succ_cons, groups_take a j k (l.drop a), List.take_take, Nat.min_eq_left (by
      rw [Nat.succ_mul]; omega), List.drop_take]
    congr 3
    rw [Nat.succ_mul]; omega

theorem groups_drop {A : Type} (a : Nat) : ∀ (j k : Nat) (l : List A), (groups a (k + j) l).drop j = groups a k (l.drop (j * a))
  | 0, _, _ => by simp
  | j + 1, k, l => by
    rw [← Nat.add_assoc, groups, List.drop_succ_cons, groups_drop a j k (l.drop a), List.drop_drop]
    congr 2
    rw [Nat.succ_mul]; omega

/-- Groups of groups. -/
theorem groups_groups {A : Type} (a d : Nat) : ∀ (n : Nat) (l : List A), groups d n (groups a (n * d) l) = (groups (d * a) n l).map (groups a d)
  | 0, _ => rfl
  | n + 1, l => by
    rw [Nat.succ_mul, groups, groups_take, groups_drop, groups_groups a d n, groups, List.map_cons]

theorem groups_flatten {A : Type} (d : Nat) : ∀ gs : List (List A), (∀ g ∈ gs, g.length = d) → groups d gs.length gs.flatten = gs
  | [], _ => rfl
  | g :: gs, h => by
    have hg := h g (by simp)
    rw [List.length_cons, groups, List.flatten_cons, ← hg, List.take_left, List.drop_left, hg,
      groups_flatten d gs (fun x hx => h x (by simp [hx]))]

theorem flatten_groups {A : Type} (d : Nat) : ∀ (n : Nat) (l : List A), l.length = n * d → (groups d n l).flatten = l
  | 0, l, h => by
    have : l = [] := List.length_eq_zero_iff.mp (by omega)
    simp [groups, this]
  | n + 1, l, h => by
    rw [Nat.succ_mul] at h
    rw [groups, List.flatten_cons, flatten_groups d n _ (by rw [List.length_drop]; omega), List.take_append_drop]

theorem groups_each {A : Type} (d : Nat) : ∀ (n : Nat) (l : List A), l.length = n * d → ∀ g ∈ groups d n l, g.length = d
  | 0, _, _, _, hg => by simp [groups] at hg
  | n + 1, l, h, g, hg => by
    rw [Nat.succ_mul] at h
    rw [groups, List.mem_cons] at hg
    rcases hg with rfl | hg
    · rw [List.length_take]; omega
    · exact groups_each d n _ (by rw [List.length_drop]; omega) g hg

theorem groups_mem {A : Type} (d : Nat) : ∀ (n : Nat) (l : List A), ∀ g ∈ groups d n l, ∀ x ∈ g, x ∈ l
  | 0, _, _, hg, _, _ => by simp [groups] at hg
  | n + 1, l, g, hg, x, hx => by
    rw [groups, List.mem_cons] at hg
    rcases hg with rfl | hg
    · exact List.mem_of_mem_take hx
    · exact List.mem_of_mem_drop (groups_mem d n _ g hg x hx)

theorem groups_append {A : Type} (d : Nat) : ∀ (n m : Nat) (l r : List A), l.length = n * d → groups d (n + m) (l ++ r) = groups d n l ++ groups d m r
  | 0, m, l, r, h => by
    have : l = [] := List.length_eq_zero_iff.mp (by omega)
    simp [groups, this]
  | n + 1, m, l, r, h => by
    rw [Nat.succ_mul] at h
    rw [Nat.succ_add, groups, groups, List.take_append_of_le_length (by omega), List.drop_append_of_le_length (by omega),
      groups_append d n m _ r (by rw [List.length_drop]; omega), List.cons_append]

/-! ### Rows of levels -/

/-- How many values a row has. -/
def width : List Kind → Nat
  | [] => 1
  | .fsl d :: ks => d * width ks
  | _ :: ks => width ks

/-- The first level of a row. -/
def headLevel {V : Type} (g : List (Nat × V)) : Nat := (g.head?.map (·.1)).getD 0

/-- The cell of a row, from the levels and values in it; the layers are the innermost first. -/
def rowVal {V : Type} : List Kind → List Layer → List (Nat × V) → Val V
  | [], ls, g =>
    match g with
    | e :: _ => cellStep (ls.getD 0 .allValidItem) 0 e.1 (.item e.2)
    | [] => .null
  | .fsl d :: ks, ls, g =>
    cellStep (ls.getD (ks.length + 1) .allValidItem) (defSum (ls.take (ks.length + 1))) (headLevel g)
      (.list ((groups (width ks) d g).map (rowVal ks ls)))
  | _ :: ks, ls, g =>
    cellStep (ls.getD (ks.length + 1) .allValidItem) (defSum (ls.take (ks.length + 1))) (headLevel g) (rowVal ks ls g)

theorem rowVal_append {V : Type} : ∀ (ks : List Kind) (ls more : List Layer), ls.length = ks.length + 1 →
    (rowVal ks (ls ++ more) : List (Nat × V) → Val V) = rowVal ks ls := by
  have gen : ∀ (ks : List Kind) (ls more : List Layer), ks.length + 1 ≤ ls.length →
      (rowVal ks (ls ++ more) : List (Nat × V) → Val V) = rowVal ks ls := by
    intro ks
    induction ks with
    | nil =>
      intro ls more h
      funext g
      cases g with
      | nil => rfl
      | cons e g =>
        simp only [rowVal]
        rw [List.getD_eq_getElem?_getD, List.getD_eq_getElem?_getD, List.getElem?_append_left (by simp at h; omega)]
    | cons k ks ih =>
      intro ls more h
      have hi := ih ls more (by simp at h; omega)
      simp only [List.length_cons] at h
      have h1 : (ls ++ more).getD (ks.length + 1) Layer.allValidItem = ls.getD (ks.length + 1) .allValidItem := by
        rw [List.getD_eq_getElem?_getD, List.getD_eq_getElem?_getD, List.getElem?_append_left (by omega)]
      have h2 : (ls ++ more).take (ks.length + 1) = ls.take (ks.length + 1) := take_inner _ _ _ (by omega)
      funext g
      cases k <;> simp only [rowVal, h1, h2, hi]
  intro ks ls more h
  exact gen ks ls more (by omega)

/-! ### Arrays without lists -/

def NoLists (ks : List Kind) : Prop := ∀ k ∈ ks, k ≠ .list

def Arr.top {V : Type} : Arr V → Option (List Bool)
  | .prim _ b => b
  | .struct _ b => b
  | .list _ _ b => b
  | .fsl _ _ b => b

def Arr.child {V : Type} : Arr V → Arr V
  | .prim vals b => .prim vals b
  | .struct c _ => c
  | .list _ c _ => c
  | .fsl _ c _ => c

/-- The cells of an array before its bitmap is looked at. -/
def Arr.bodies {V : Type} : Arr V → List (Val V)
  | .prim vals _ => vals.map .item
  | .struct c _ => c.cells
  | .list offs c _ => (slices c.cells offs).map .list
  | .fsl dim c _ => (groups dim (c.len / dim) c.cells).map .list

theorem cells_bodies {V : Type} (a : Arr V) : a.cells = mask a.top a.bodies := by cases a <;> rfl

/-- What is known of an array by its outermost layer. -/
theorem ok_cons {V : Type} (k : Kind) (hk : k ≠ .list) (ks : List Kind) (a : Arr V) (h : a.Ok (k :: ks)) :
    a.child.Ok ks ∧ BitsOk a.top a.len ∧ a.leaves = a.child.leaves ∧ a.bitmaps = a.child.bitmaps ++ [a.top] ∧ 0 < width [k] ∧
      a.child.len = a.len * width [k] ∧ a.bodies = (match k with
        | .fsl d => (groups d a.len a.child.cells).map .list
        | _ => a.child.cells) := by
  cases k with
  | list => exact absurd rfl hk
  | struct =>
    cases a <;> simp only [Arr.Ok] at h
    exact ⟨h.1, h.2, rfl, rfl, by simp [width], by simp [width, Arr.child, Arr.len], rfl⟩
  | fsl d =>
    cases a <;> simp only [Arr.Ok] at h
    rename_i d' c b
    obtain ⟨h1, h2, rfl, h4, h5⟩ := h
    refine ⟨h1, h2, rfl, rfl, by simpa [width] using h4, ?_, rfl⟩
    simp only [width, Nat.mul_one, Arr.child, Arr.len]
    exact (Nat.div_mul_cancel (Nat.dvd_of_mod_eq_zero h5)).symm

theorem width_cons (k : Kind) (ks : List Kind) : width (k :: ks) = width [k] * width ks := by
  cases k <;> simp [width]

theorem width_pos {V : Type} : ∀ (ks : List Kind), NoLists ks → (∃ a : Arr V, a.Ok ks) → 0 < width ks
  | [], _, _ => by simp [width]
  | k :: ks, hn, ⟨a, ha⟩ => by
    obtain ⟨h1, _, _, _, h5, _⟩ := ok_cons k (hn k (by simp)) ks a ha
    rw [width_cons]
    exact Nat.mul_pos h5 (width_pos ks (fun x hx => hn x (by simp [hx])) ⟨_, h1⟩)

theorem leaves_width {V : Type} : ∀ (ks : List Kind), NoLists ks → ∀ a : Arr V, a.Ok ks → a.leaves.length = a.len * width ks
  | [], _, a, h => by cases a <;> simp only [Arr.Ok] at h; simp [Arr.leaves, Arr.len, width]
  | k :: ks, hn, a, h => by
    obtain ⟨h1, _, h3, _, _, h6, _⟩ := ok_cons k (hn k (by simp)) ks a h
    rw [h3, leaves_width ks (fun x hx => hn x (by simp [hx])) _ h1, h6, width_cons k ks, Nat.mul_assoc]

theorem sum_map_mul {A : Type} (f : A → Nat) (m : Nat) : ∀ l : List A, (l.map fun a => f a * m).sum = (l.map f).sum * m
  | [] => by simp
  | a :: l => by simp [sum_map_mul f m l, Nat.add_mul]

theorem leaves_page {V : Type} (ks : List Kind) (hn : NoLists ks) (arrs : List (Arr V)) (hok : ∀ a ∈ arrs, a.Ok ks) :
    (arrs.flatMap Arr.leaves).length = (arrs.map Arr.len).sum * width ks := by
  rw [List.length_flatMap, ← sum_map_mul]
  exact congrArg List.sum (List.map_congr_left fun a ha => leaves_width ks hn a (hok a ha))

/-- The bitmaps at the outermost layer, put together. -/
def tops {V : Type} (arrs : List (Arr V)) : Option (List Bool) := joinBits (arrs.map fun a => (a.top, a.len))

/-- A bitmap with each bit repeated. -/
def spread (m : Nat) (bits : Option (List Bool)) : Option (List Bool) := bits.map fun bs => bs.flatMap fun v => List.replicate m v

/-- The bitmaps of some arrays, put together layer by layer, with a bit for each value; the innermost first. -/
def jointBits {V : Type} : List Kind → List (Arr V) → List (Option (List Bool))
  | [], arrs => [tops arrs]
  | k :: ks, arrs => jointBits ks (arrs.map Arr.child) ++ [spread (width (k :: ks)) (tops arrs)]

theorem jointBits_length {V : Type} : ∀ (ks : List Kind) (arrs : List (Arr V)), (jointBits ks arrs).length = ks.length + 1
  | [], _ => rfl
  | _ :: ks, arrs => by simp [jointBits, jointBits_length ks]

/-- The levels of some arrays. -/
def jointLevels {V : Type} (ks : List Kind) (arrs : List (Arr V)) : List Nat :=
  markAll (jointBits ks arrs) 1 (List.replicate ((arrs.map Arr.len).sum * width ks) 0)

def jointLayers {V : Type} (ks : List Kind) (arrs : List (Arr V)) : List Layer := (jointBits ks arrs).map bitLayer

theorem len_cells {V : Type} : ∀ (ks : List Kind), NoLists ks → ∀ a : Arr V, a.Ok ks → a.cells.length = a.len ∧ a.bodies.length = a.len
  | [], _, a, h => by
    cases a <;> simp only [Arr.Ok] at h
    refine ⟨?_, by simp [Arr.bodies, Arr.len]⟩
    rw [Arr.cells, mask_length _ _ (by rw [List.length_map]; exact h), List.length_map]
    rfl
  | k :: ks, hn, a, h => by
    obtain ⟨h1, h2, _, _, _, h6, h7⟩ := ok_cons k (hn k (by simp)) ks a h
    have hb : a.bodies.length = a.len := by
      rw [h7]
      cases k with
      | list => exact absurd rfl (hn _ (by simp))
      | struct =>
        simp only
        rw [(len_cells ks (fun x hx => hn x (by simp [hx])) _ h1).1, h6]; simp [width]
      | fsl d => simp [groups_length]
    refine ⟨?_, hb⟩
    rw [cells_bodies, mask_length _ _ (by rw [hb]; exact h2), hb]

theorem cells_tops {V : Type} (ks : List Kind) (hn : NoLists ks) (arrs : List (Arr V)) (hok : ∀ a ∈ arrs, a.Ok ks) (hb : ∀ a ∈ arrs, BitsOk a.top a.len) :
    arrs.flatMap Arr.cells = mask (tops arrs) (arrs.flatMap Arr.bodies) := by
  have := mask_join (arrs.map fun a => (a.top, a.bodies)) (by
    intro x hx
    obtain ⟨a, ha, rfl⟩ := List.mem_map.mp hx
    simp only
    rw [(len_cells ks hn a (hok a ha)).2]
    exact hb a ha)
  rw [List.flatMap_map, List.flatMap_map, List.map_map] at this
  unfold tops
  have h2 : (arrs.map fun a => (a.top, a.len)) = arrs.map ((fun x : Option (List Bool) × List (Val V) => (x.1, x.2.length)) ∘ fun a => (a.top, a.bodies)) := by
    apply List.map_congr_left
    intro a ha
    simp only [Function.comp]
    rw [(len_cells ks hn a (hok a ha)).2]
  rw [h2, this]
  congr 1
  funext a
  exact cells_bodies a

theorem tops_ok {V : Type} (arrs : List (Arr V)) (hb : ∀ a ∈ arrs, BitsOk a.top a.len) : BitsOk (tops arrs) (arrs.map Arr.len).sum := by
  have := joinBits_ok (arrs.map fun a => (a.top, a.len)) (by
    intro x hx
    obtain ⟨a, ha, rfl⟩ := List.mem_map.mp hx
    exact hb a ha)
  rw [List.map_map] at this
  exact this

theorem bodies_groups {V : Type} (d : Nat) : ∀ arrs : List (Arr V), (∀ a ∈ arrs, a.bodies = (groups d a.len a.child.cells).map .list ∧
    a.child.cells.length = a.len * d) →
    arrs.flatMap Arr.bodies = (groups d (arrs.map Arr.len).sum (arrs.flatMap fun a => a.child.cells)).map .list
  | [], _ => rfl
  | a :: arrs, h => by
    obtain ⟨h1, h2⟩ := h a (by simp)
    rw [List.flatMap_cons, bodies_groups d arrs (fun x hx => h x (by simp [hx])), h1, List.map_cons, List.sum_cons, List.flatMap_cons,
      groups_append d _ _ _ _ h2, List.map_append]

/-- A bitmap over rows, and its bits marked in the levels of the rows. -/
theorem mask_rows {V : Type} (M : Nat) (hM : 0 < M) (cmp : Nat) (F : List (Nat × V) → Val V) : ∀ (bs : List Bool) (ds : List Nat) (vs : List V),
    ds.length = bs.length * M → vs.length = ds.length → (∀ d ∈ ds, d ≤ cmp) →
    List.zipWith (fun b v => if b then Val.valid v else Val.null) bs ((groups M bs.length (ds.zip vs)).map F) =
      (groups M bs.length ((markNulls (cmp + 1) ds (bs.flatMap fun v => List.replicate M v)).zip vs)).map
        (fun g => cellStep .nullableItem cmp (headLevel g) (F g))
  | [], _, _, _, _, _ => rfl
  | b :: bs, ds, vs, hd, hv, hc => by
    rw [List.length_cons, Nat.succ_mul] at hd
    have hsplit : ds = ds.take M ++ ds.drop M := (List.take_append_drop M ds).symm
    have htl : (ds.take M).length = M := by rw [List.length_take]; omega
    have hvl : (vs.take M).length = M := by rw [List.length_take]; omega
    have hmark : markNulls (cmp + 1) ds ((b :: bs).flatMap fun v => List.replicate M v) =
        (ds.take M).map (fun d => if b then d else cmp + 1) ++ markNulls (cmp + 1) (ds.drop M) (bs.flatMap fun v => List.replicate M v) := by
      have gen : ∀ (n : Nat) (xs ys : List Nat) (zs : List Bool), xs.length = n →
          markNulls (cmp + 1) (xs ++ ys) (List.replicate n b ++ zs) = xs.map (fun d => if b then d else cmp + 1) ++ markNulls (cmp + 1) ys zs := by
        intro n
        induction n with
        | zero =>
          intro xs ys zs hx
          have : xs = [] := List.length_eq_zero_iff.mp hx
          subst this
          rfl
        | succ n ih =>
          intro xs ys zs hx
          cases xs with
          | nil => simp at hx
          | cons x xs =>
            rw [List.replicate_succ, List.cons_append, List.cons_append, markNulls, ih xs ys zs (by simpa using hx), List.map_cons, List.cons_append]
      rw [List.flatMap_cons]
      conv => lhs; rw [hsplit]
      exact gen M _ _ _ htl
    have hzip : ∀ (xs ys : List Nat), xs.length = M → (xs ++ ys).zip vs = xs.zip (vs.take M) ++ ys.zip (vs.drop M) := by
      intro xs ys hx
      conv => lhs; rw [← List.take_append_drop M vs]
      rw [List.zip_append (by rw [hx, hvl])]
    have hz1 : ∀ xs : List Nat, xs.length = M → (xs.zip (vs.take M)).length = M := by intro xs hx; rw [List.length_zip, hx, hvl, Nat.min_self]
    have ih := mask_rows M hM cmp F bs (ds.drop M) (vs.drop M) (by rw [List.length_drop]; omega) (by rw [List.length_drop, List.length_drop]; omega)
      (fun d hdm => hc d (List.mem_of_mem_drop hdm))
    have hml : ((ds.take M).map (fun d => if b then d else cmp + 1)).length = M := by rw [List.length_map, htl]
    have hstep : ∀ (xs ys : List (Nat × V)), xs.length = M → groups M (bs.length + 1) (xs ++ ys) = xs :: groups M bs.length ys := by
      intro xs ys hx
      rw [groups, ← hx, List.take_left, List.drop_left]
    rw [List.length_cons, hmark, hzip _ _ hml, hstep _ _ (hz1 _ hml)]
    conv => lhs; rw [hsplit]
    rw [hzip _ _ htl, hstep _ _ (hz1 _ htl), List.map_cons, List.map_cons, List.zipWith_cons_cons, ih]
    congr 1
    cases hds : ds.take M with
    | nil => rw [hds] at htl; simp at htl; omega
    | cons x xs =>
      cases hvs : vs.take M with
      | nil => rw [hvs] at hvl; simp at hvl; omega
      | cons y ys =>
        cases b with
        | true =>
          have hx : x ≤ cmp := hc x (List.mem_of_mem_take (by rw [hds]; simp))
          simp [cellStep, headLevel, hx]
        | false => simp [cellStep, headLevel]

theorem groups_eq {A : Type} {d n m : Nat} (h : n = m) (l : List A) : groups d n l = groups d m l := by rw [h]

theorem items_groups {V : Type} (b : List Layer) (vs : List (Nat × V)) :
    (groups 1 vs.length vs).map (rowVal [] b) = vs.map fun e => cellStep (b.getD 0 .allValidItem) 0 e.1 (.item e.2) := by
  induction vs with
  | nil => rfl
  | cons e vs ih =>
    rw [List.length_cons, groups, List.map_cons, List.map_cons]
    simp only [List.take_succ_cons, List.take_zero, List.drop_succ_cons, List.drop_zero]
    rw [ih]
    rfl

/-- A bitmap put around rows. -/
theorem cells_step {V : Type} (M : Nat) (hM : 0 < M) (inner : List (Option (List Bool))) (bits : Option (List Bool)) (n : Nat) (hb : BitsOk bits n)
    (vs : List V) (hv : vs.length = n * M) (F : List (Nat × V) → Val V) :
    mask bits ((groups M n ((markAll inner 1 (List.replicate (n * M) 0)).zip vs)).map F) =
      (groups M n ((markAll (inner ++ [spread M bits]) 1 (List.replicate (n * M) 0)).zip vs)).map
        fun g => cellStep (bitLayer bits) (defSum (inner.map bitLayer)) (headLevel g) (F g) := by
  cases bits with
  | none =>
    rw [markAll_snoc]
    simp only [spread, Option.map_none, mask, List.map_map]
    apply List.map_congr_left
    intro g _
    simp [cellStep, bitLayer]
  | some bs =>
    have hbs := hb bs rfl
    rw [markAll_snoc]
    simp only [spread, Option.map_some, mask]
    have := mask_rows M hM (defSum (inner.map bitLayer)) F bs (markAll inner 1 (List.replicate (n * M) 0)) vs
      (by rw [markAll_length, List.length_replicate, hbs]) (by rw [markAll_length, List.length_replicate, hv])
      (fun d hd => markAll_le inner _ d hd)
    rw [hbs] at this
    rw [this, Nat.add_comm 1]
    rfl

theorem spread_one (b : Option (List Bool)) : spread 1 b = b := by
  cases b with
  | none => rfl
  | some bs => simp only [spread, Option.map_some]; rw [flatMap_one]

theorem bitLayer_spread (m : Nat) (b : Option (List Bool)) : bitLayer (spread m b) = bitLayer b := by cases b <;> rfl

theorem zeros_zip {V : Type} (n : Nat) (vs : List V) (h : vs.length = n) : (groups 1 n ((List.replicate n 0).zip vs)).map
    (fun g => (match g with | e :: _ => Val.item e.2 | [] => Val.null)) = vs.map .item := by
  subst h
  induction vs with
  | nil => rfl
  | cons v vs ih =>
    rw [List.length_cons, List.replicate_succ, List.zip_cons_cons, groups, List.map_cons, List.map_cons]
    simp only [List.take_succ_cons, List.take_zero, List.drop_succ_cons, List.drop_zero]
    rw [ih]

/-- The cells of arrays without lists, row by row from levels and values. -/
theorem cells_rows {V : Type} : ∀ (ks : List Kind), NoLists ks → ∀ arrs : List (Arr V), arrs ≠ [] → (∀ a ∈ arrs, a.Ok ks) →
    arrs.flatMap Arr.cells = (groups (width ks) (arrs.map Arr.len).sum ((jointLevels ks arrs).zip (arrs.flatMap Arr.leaves))).map
      (rowVal ks (jointLayers ks arrs))
  | [], hn, arrs, _, hok => by
    have hb : ∀ a ∈ arrs, BitsOk a.top a.len := by
      intro a ha
      have := hok a ha
      cases a <;> simp only [Arr.Ok] at this
      exact this
    have hbody : arrs.flatMap Arr.bodies = (arrs.flatMap Arr.leaves).map .item := by
      rw [List.map_flatMap, List.flatMap_def, List.flatMap_def]
      congr 1
      apply List.map_congr_left
      intro a ha
      have := hok a ha
      cases a <;> simp only [Arr.Ok] at this
      rfl
    have hlv := leaves_page [] hn arrs hok
    rw [cells_tops [] hn arrs hok hb, hbody]
    have hz := zeros_zip (arrs.map Arr.len).sum (arrs.flatMap Arr.leaves) (by rw [hlv]; simp [width])
    have hstep := cells_step 1 (by omega) [] (tops arrs) (arrs.map Arr.len).sum (tops_ok arrs hb) (arrs.flatMap Arr.leaves) (by rw [hlv]; simp [width])
      (fun g => (match g with | e :: _ => Val.item e.2 | [] => Val.null))
    simp only [markAll, Nat.mul_one] at hstep
    rw [hz] at hstep
    rw [hstep, spread_one]
    unfold jointLevels jointLayers jointBits
    simp only [width, Nat.mul_one, List.nil_append]
    apply List.map_congr_left
    intro g hg
    have hgl := groups_each 1 _ _ (by rw [List.length_zip, markAll_length, List.length_replicate, hlv]; simp [width]) g hg
    cases g with
    | nil => simp at hgl
    | cons e g => simp [rowVal, headLevel, defSum]
  | k :: ks, hn, arrs, hne, hok => by
    have hn' : NoLists ks := fun x hx => hn x (by simp [hx])
    have hk := hn k (by simp)
    have hf := fun a ha => ok_cons k hk ks a (hok a ha)
    have hb : ∀ a ∈ arrs, BitsOk a.top a.len := fun a ha => (hf a ha).2.1
    have ih := cells_rows ks hn' (arrs.map Arr.child) (by simpa using hne) (by
      intro c hc
      obtain ⟨a, ha, rfl⟩ := List.mem_map.mp hc
      exact (hf a ha).1)
    have hleaves : (arrs.map Arr.child).flatMap Arr.leaves = arrs.flatMap Arr.leaves := by
      rw [List.flatMap_map, List.flatMap_def, List.flatMap_def]
      congr 1
      exact List.map_congr_left fun a ha => (hf a ha).2.2.1.symm
    have hlens : ((arrs.map Arr.child).map Arr.len).sum = (arrs.map Arr.len).sum * width [k] := by
      rw [List.map_map, ← sum_map_mul]
      exact congrArg List.sum (List.map_congr_left fun a ha => (hf a ha).2.2.2.2.2.1)
    have hM : 0 < width (k :: ks) := by
      cases arrs with
      | nil => exact absurd rfl hne
      | cons a arrs => exact width_pos (k :: ks) hn ⟨a, hok a (by simp)⟩
    have hlv := leaves_page (k :: ks) hn arrs hok
    rw [cells_tops (k :: ks) hn arrs hok hb]
    have hbody : arrs.flatMap Arr.bodies = (groups (width (k :: ks)) (arrs.map Arr.len).sum
        ((markAll (jointBits ks (arrs.map Arr.child)) 1 (List.replicate ((arrs.map Arr.len).sum * width (k :: ks)) 0)).zip (arrs.flatMap Arr.leaves))).map
        (fun g => match k with
          | .fsl d => .list ((groups (width ks) d g).map (rowVal ks (jointLayers ks (arrs.map Arr.child))))
          | _ => rowVal ks (jointLayers ks (arrs.map Arr.child)) g) := by
      rw [List.flatMap_map, ← List.flatMap_map, hleaves, hlens] at ih
      unfold jointLevels at ih
      rw [hlens, Nat.mul_assoc, ← width_cons] at ih
      cases k with
      | list => exact absurd rfl hk
      | struct =>
        have h1 : arrs.flatMap Arr.bodies = (arrs.map Arr.child).flatMap Arr.cells := by
          rw [List.flatMap_map, List.flatMap_def, List.flatMap_def]
          congr 1
          exact List.map_congr_left fun a ha => (hf a ha).2.2.2.2.2.2
        rw [h1, ih]
        simp [width]
      | fsl d =>
        have h1 := bodies_groups d arrs (by
          intro a ha
          obtain ⟨h1, _, _, _, _, h6, h7⟩ := hf a ha
          refine ⟨h7, ?_⟩
          rw [(len_cells ks hn' _ h1).1, h6]
          simp [width])
        rw [h1, ← List.flatMap_map (f := Arr.child) (g := Arr.cells), ih, groups_map]
        simp only [width, Nat.mul_one]
        rw [groups_groups, List.map_map, List.map_map]
        rfl
    rw [hbody, cells_step _ hM _ _ _ (tops_ok arrs hb) _ hlv]
    have hls : jointLayers (k :: ks) arrs = jointLayers ks (arrs.map Arr.child) ++ [bitLayer (tops arrs)] := by
      unfold jointLayers
      rw [jointBits, List.map_append, List.map_cons, List.map_nil, bitLayer_spread]
    have hlen : (jointLayers ks (arrs.map Arr.child)).length = ks.length + 1 := by unfold jointLayers; rw [List.length_map, jointBits_length]
    unfold jointLevels
    rw [show jointBits (k :: ks) arrs = jointBits ks (arrs.map Arr.child) ++ [spread (width (k :: ks)) (tops arrs)] from rfl]
    apply List.map_congr_left
    intro g _
    have h1 : (jointLayers (k :: ks) arrs).getD (ks.length + 1) Layer.allValidItem = bitLayer (tops arrs) := by
      rw [hls, List.getD_eq_getElem?_getD, List.getElem?_append_right (by omega), hlen]; simp
    have h2 : (jointLayers (k :: ks) arrs).take (ks.length + 1) = jointLayers ks (arrs.map Arr.child) := by
      rw [hls, ← hlen, List.take_left]
    have h3 : (rowVal ks (jointLayers (k :: ks) arrs) : List (Nat × V) → Val V) = rowVal ks (jointLayers ks (arrs.map Arr.child)) := by
      rw [hls, rowVal_append _ _ _ hlen]
    cases k with
    | list => exact absurd rfl hk
    | struct => simp only [rowVal]; rw [h1, h2, h3]; rfl
    | fsl d => simp only [rowVal]; rw [h1, h2, h3]; rfl

end Verif.RepDef
