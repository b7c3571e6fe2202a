import Verif.Pq.Part
import Verif.Pq.LemmasDist
/-! # Partitions of product-quantized indices: lemmas about codes -/
namespace Verif.Pq

/-- The code of a vector. -/
def codeD (q : Quantizer) (v : List Int) : List Nat := (codeOf q v).getD []

theorem codeD_spec {q : Quantizer} (hq : Valid q) {v : List Int} (hv : v.length = q.dim) : CodeFor q v (codeD q v) := by
  obtain ⟨b, h1, h2⟩ := codeOf_spec hq hv
  unfold codeD
  rw [h1]
  exact h2

theorem codesOf_eq {q : Quantizer} (hq : Valid q) : ∀ (vs : List (List Int)), (∀ v ∈ vs, v.length = q.dim) → codesOf q vs = some (vs.map (codeD q)).flatten
  | [], _ => rfl
  | v :: vs, h => by
    obtain ⟨b, h1, h2⟩ := codeOf_spec hq (h v List.mem_cons_self)
    unfold codesOf
    rw [h1, codesOf_eq hq vs (fun x hx => h x (List.mem_cons_of_mem _ hx))]
    simp only [List.map_cons, List.flatten_cons]
    unfold codeD
    rw [h1]
    rfl

theorem quantize_eq {q : Quantizer} (hq : Valid q) (vs : List (List Int)) (h : ∀ v ∈ vs, v.length = q.dim) : quantize q vs = some (vs.map (codeD q)).flatten := by
  unfold quantize
  have hd : 0 < q.dim := by
    rw [hq.dim]; exact Nat.mul_pos hq.subs hq.width
  have hs := hq.subs
  rw [if_pos (by rcases hq.bits with h | h; exact Or.inr h; exact Or.inl h.1), if_neg (by rcases hq.bits with h | h <;> omega), if_neg (by omega),
    chunksExact_flatten hd h, codesOf_eq hq vs h]

/-- The rows as they are in a partition. -/
def coded (q : Quantizer) (rows : List (Nat × List Int)) : List (List Nat) := rows.map (fun r => codeD q r.2)

theorem coded_length (q : Quantizer) (rows : List (Nat × List Int)) : (coded q rows).length = rows.length := by simp [coded]

/-- Rows with vectors of the right dimension. -/
def Sized (q : Quantizer) (rows : List (Nat × List Int)) : Prop := ∀ r ∈ rows, r.2.length = q.dim

theorem coded_mem {q : Quantizer} (hq : Valid q) {rows : List (Nat × List Int)} (h : Sized q rows) {c : List Nat} (hc : c ∈ coded q rows) : ∃ v, CodeFor q v c := by
  unfold coded at hc
  obtain ⟨r, hr, rfl⟩ := List.mem_map.1 hc
  exact ⟨_, codeD_spec hq (h r hr)⟩

theorem coded_mem_length {q : Quantizer} (hq : Valid q) {rows : List (Nat × List Int)} (h : Sized q rows) {c : List Nat} (hc : c ∈ coded q rows) : c.length = q.codeLen := by
  obtain ⟨v, hv⟩ := coded_mem hq h hc
  exact hv.len

theorem quantize_rows {q : Quantizer} (hq : Valid q) {rows : List (Nat × List Int)} (h : Sized q rows) :
    quantize q (rows.map Prod.snd) = some (coded q rows).flatten := by
  rw [quantize_eq hq _ (by intro v hv; obtain ⟨r, hr, rfl⟩ := List.mem_map.1 hv; exact h r hr), List.map_map]
  rfl

theorem storage_build {q : Quantizer} (hq : Valid q) {rows : List (Nat × List Int)} (h : Sized q rows) :
    Storage.build q rows = some ⟨q, (columns q.codeLen (coded q rows)).flatten, rows.map Prod.fst⟩ := by
  unfold Storage.build Storage.new
  rw [quantize_rows hq h]
  simp only [Bool.false_eq_true, if_false]
  have := transpose_eq (rows := coded q rows) (fun r hr => coded_mem_length hq h hr) (codeLen_pos hq)
  rw [coded_length] at this
  rw [List.length_map, this]
  rfl

theorem codeLen_8 {q : Quantizer} (hb : q.bits = 8) : q.codeLen = q.subs := by
  unfold Quantizer.codeLen
  rw [if_neg (by omega)]

/-- The page of rows. -/
def pageOf (q : Quantizer) (rows : List (Nat × List Int)) : Page := ⟨q, (columns q.subs (coded q rows)).flatten, rows.map Prod.fst⟩

theorem load_eq {q : Quantizer} (hq : Valid q) (hb : q.bits = 8) {rows : List (Nat × List Int)} (h : Sized q rows) :
    Page.load q (coded q rows).flatten (rows.map Prod.fst) = some (pageOf q rows) := by
  unfold Page.load
  have := transpose_eq (rows := coded q rows) (c := q.subs) (fun r hr => by rw [coded_mem_length hq h hr, codeLen_8 hb]) hq.subs
  rw [coded_length] at this
  rw [List.length_map, this]
  rfl

theorem page_build {q : Quantizer} (hq : Valid q) (hb : q.bits = 8) {rows : List (Nat × List Int)} (h : Sized q rows) : Page.build q rows = some (pageOf q rows) := by
  unfold Page.build
  rw [quantize_rows hq h]
  exact load_eq hq hb h

/-! ## Transposing twice -/

theorem columns_columns {c : Nat} {rows : List (List Nat)} (h : ∀ r ∈ rows, r.length = c) : columns rows.length (columns c rows) = rows := by
  apply List.ext_getElem?
  intro j
  by_cases hj : j < rows.length
  · rw [columns_getElem? _ hj, columns_row (List.getElem?_eq_getElem hj) (h _ (List.getElem_mem hj)), List.getElem?_eq_getElem hj]
  · rw [List.getElem?_eq_none (by simp [columns]; omega), List.getElem?_eq_none (by omega)]

theorem columns_nil (c : Nat) : (columns c ([] : List (List Nat))).flatten = [] := by
  unfold columns
  simp

theorem transpose_back {c : Nat} {rows : List (List Nat)} (h : ∀ r ∈ rows, r.length = c) : transpose (columns c rows).flatten c rows.length = some rows.flatten := by
  by_cases he : rows = []
  · subst he
    rw [columns_nil]; rfl
  · have hp : 0 < rows.length := List.length_pos_iff.2 he
    have := transpose_eq (rows := columns c rows) (c := rows.length) (fun r hr => columns_mem_length hr) hp
    rw [show (columns c rows).length = c by simp [columns], columns_columns h] at this
    exact this

theorem page_transpose_back {q : Quantizer} (hq : Valid q) (hb : q.bits = 8) {rows : List (Nat × List Int)} (h : Sized q rows) :
    transpose (pageOf q rows).code q.subs rows.length = some (coded q rows).flatten := by
  have := transpose_back (rows := coded q rows) (c := q.subs) (fun r hr => by rw [coded_mem_length hq h hr, codeLen_8 hb])
  rw [coded_length] at this
  exact this

theorem page_code_length (q : Quantizer) (rows : List (Nat × List Int)) : (pageOf q rows).code.length = rows.length * q.subs := by
  unfold pageOf
  rw [columns_flatten_length, coded_length]

/-! ## Remapping -/

/-- The rows that are left, with their new ids. -/
def survivors (m : Mapping) : List (Nat × List Int) → List (Nat × List Int)
  | [] => []
  | (id, v) :: rows =>
    match m id with
    | some none => survivors m rows
    | some (some id') => (id', v) :: survivors m rows
    | none => (id, v) :: survivors m rows

theorem survivors_sized {q : Quantizer} {m : Mapping} : ∀ {rows : List (Nat × List Int)}, Sized q rows → Sized q (survivors m rows)
  | [], _ => fun r hr => by simp [survivors] at hr
  | (id, v) :: rows, h => by
    have hv := h (id, v) List.mem_cons_self
    have ih := survivors_sized (m := m) (fun r hr => h r (List.mem_cons_of_mem _ hr) : Sized q rows)
    intro r hr
    unfold survivors at hr
    split at hr
    · exact ih r hr
    · rcases List.mem_cons.1 hr with rfl | hr
      · exact hv
      · exact ih r hr
    · rcases List.mem_cons.1 hr with rfl | hr
      · exact hv
      · exact ih r hr

theorem remapFrom_eq {q : Quantizer} {p : Page} (m : Mapping) : ∀ (rows : List (Nat × List Int)) (i : Nat),
    (∀ (j : Nat) (r : Nat × List Int), rows[j]? = some r → p.codeAt (i + j) = codeD q r.2) →
    p.remapFrom m i (rows.map Prod.fst) = (survivors m rows).map (fun r => (r.1, codeD q r.2))
  | [], _, _ => rfl
  | (id, v) :: rows, i, h => by
    have h0 : p.codeAt i = codeD q v := h 0 (id, v) rfl
    have ih := remapFrom_eq m rows (i + 1) (fun j r hj => by
      have := h (j + 1) r (by simpa using hj)
      rw [← this]
      congr 1
      omega)
    simp only [List.map_cons]
    unfold Page.remapFrom survivors Mapping.apply
    cases hm : m id with
    | none =>
      simp only [Option.getD_none, List.map_cons]
      rw [ih, h0]
    | some o =>
      cases o with
      | none => simp only [Option.getD_some]; exact ih
      | some id' =>
        simp only [Option.getD_some, List.map_cons]
        rw [ih, h0]

theorem page_codeAt {q : Quantizer} (hq : Valid q) (hb : q.bits = 8) {rows : List (Nat × List Int)} (h : Sized q rows) {j : Nat} {r : Nat × List Int}
    (hj : rows[j]? = some r) : (pageOf q rows).codeAt j = codeD q r.2 := by
  unfold Page.codeAt pageOf
  simp only [List.length_map]
  have hm : (coded q rows)[j]? = some (codeD q r.2) := by unfold coded; rw [List.getElem?_map, hj]; rfl
  have := strided_columns hm (show (codeD q r.2).length = q.subs by rw [← codeLen_8 hb]; exact coded_mem_length hq h (List.mem_of_getElem? hm))
  rw [coded_length] at this
  exact this

theorem page_remap {q : Quantizer} (hq : Valid q) (hb : q.bits = 8) {rows : List (Nat × List Int)} (h : Sized q rows) (m : Mapping) :
    (pageOf q rows).remap m = some (pageOf q (survivors m rows)) := by
  have e : (pageOf q rows).remapFrom m 0 (pageOf q rows).rowIds = (survivors m rows).map (fun r => (r.1, codeD q r.2)) :=
    remapFrom_eq m rows 0 (fun j r hj => by rw [Nat.zero_add]; exact page_codeAt hq hb h hj)
  unfold Page.remap
  simp only [e, List.map_map, List.length_map]
  have := load_eq hq hb (survivors_sized (m := m) h)
  unfold Page.load at this
  rw [List.length_map] at this
  exact this

theorem page_rewrite {q : Quantizer} (hq : Valid q) (hb : q.bits = 8) {rows : List (Nat × List Int)} (h : Sized q rows) (m : Mapping) :
    (pageOf q rows).rewrite m = some (pageOf q (survivors m rows)) := by
  have hs := survivors_sized (m := m) h
  unfold Page.rewrite
  rw [page_remap hq hb h m]
  simp only [show (pageOf q (survivors m rows)).q = q from rfl, show (pageOf q (survivors m rows)).rowIds = (survivors m rows).map Prod.fst from rfl, List.length_map]
  rw [page_transpose_back hq hb hs]
  simp only
  exact load_eq hq hb hs

theorem page_toBatch {q : Quantizer} (hq : Valid q) (hb : q.bits = 8) {rows : List (Nat × List Int)} (h : Sized q rows) :
    (pageOf q rows).toBatch = some (rows.map (fun r => (r.1, codeD q r.2))) := by
  unfold Page.toBatch
  simp only [show (pageOf q rows).q = q from rfl, show (pageOf q rows).rowIds = rows.map Prod.fst from rfl, List.length_map]
  rw [page_transpose_back hq hb h]
  simp only
  have hl : ∀ r ∈ coded q rows, r.length = q.subs := fun r hr => by rw [coded_mem_length hq h hr, codeLen_8 hb]
  unfold fsl
  have hs := hq.subs
  rw [if_neg (by omega), if_pos (by rw [length_flatten_eq hl]; simp), chunksExact_flatten hs hl]
  simp only
  rw [if_pos (coded_length q rows)]
  congr 1
  unfold coded
  induction rows with
  | nil => rfl
  | cons r rows ih =>
    simp only [List.map_cons, List.zip_cons_cons]
    rw [ih (fun x hx => h x (List.mem_cons_of_mem _ hx)) (fun x hx => hl x (by unfold coded at hx ⊢; exact List.mem_cons_of_mem _ hx))]

/-! ## Merging -/

theorem oldCodes_eq {q : Quantizer} (hq : Valid q) (hb : q.bits = 8) : ∀ (R : List (List (Nat × List Int))), (∀ rows ∈ R, Sized q rows) →
    oldCodes (R.map (pageOf q)) = some (coded q R.flatten).flatten
  | [], _ => rfl
  | rows :: R, h => by
    have h1 := h rows List.mem_cons_self
    have ih := oldCodes_eq hq hb R (fun x hx => h x (List.mem_cons_of_mem _ hx))
    have hs := hq.subs
    simp only [List.map_cons]
    unfold oldCodes
    simp only [show (pageOf q rows).q = q from rfl]
    rw [if_neg (by omega), page_code_length, Nat.mul_div_cancel _ hs, page_transpose_back hq hb h1, ih]
    simp [coded]

theorem page_merge {q : Quantizer} (hq : Valid q) (hb : q.bits = 8) (R : List (List (Nat × List Int))) (hR : ∀ rows ∈ R, Sized q rows) {rows : List (Nat × List Int)}
    (h : Sized q rows) : Page.merge q (R.map (pageOf q)) rows = some (pageOf q (R.flatten ++ rows)) := by
  unfold Page.merge
  rw [oldCodes_eq hq hb R hR, quantize_rows hq h]
  simp only
  have hs : Sized q (R.flatten ++ rows) := by
    intro r hr
    rcases List.mem_append.1 hr with hr | hr
    · obtain ⟨l, hl, hr⟩ := List.mem_flatten.1 hr
      exact hR l hl r hr
    · exact h r hr
  have := load_eq hq hb hs
  rw [← this]
  congr 1
  · simp [coded]
  · rw [List.map_append]
    congr 1
    rw [List.flatMap_map]
    simp [pageOf, List.flatMap, List.map_flatten]

/-! ## The third format -/

theorem pick_all {α : Type} (l : List α) : ∀ (pre post : List α), l = pre ++ post → pick l (List.range' pre.length post.length) = some post
  | pre, [], _ => rfl
  | pre, x :: post, h => by
    have ih := pick_all l (pre ++ [x]) post (by rw [h]; simp)
    simp only [List.length_append, List.length_cons, List.length_nil, Nat.zero_add] at ih
    simp only [List.length_cons, List.range'_succ]
    unfold pick
    rw [ih, show l[pre.length]? = some x by rw [h]; simp]

theorem keptFrom_all {m : Mapping} : ∀ (rows : List (Nat × List Int)) (i : Nat), (∀ r ∈ rows, m r.1 ≠ some none) →
    keptFrom m i (rows.map Prod.fst) = (List.range' i rows.length).zip ((survivors m rows).map Prod.fst) ∧ (survivors m rows).length = rows.length ∧
      (survivors m rows).map Prod.snd = rows.map Prod.snd
  | [], _, _ => ⟨rfl, rfl, rfl⟩
  | (id, v) :: rows, i, h => by
    have h0 := h (id, v) List.mem_cons_self
    obtain ⟨i1, i2, i3⟩ := keptFrom_all rows (i + 1) (fun r hr => h r (List.mem_cons_of_mem _ hr))
    simp only [List.map_cons, List.length_cons, List.range'_succ]
    unfold keptFrom survivors Mapping.apply
    cases hm : m id with
    | none =>
      simp only [Option.getD_none, List.map_cons, List.zip_cons_cons, List.length_cons]
      exact ⟨by rw [i1], by rw [i2], by rw [i3]⟩
    | some o =>
      cases o with
      | none => exact absurd hm h0
      | some id' =>
        simp only [Option.getD_some, List.map_cons, List.zip_cons_cons, List.length_cons]
        exact ⟨by rw [i1], by rw [i2], by rw [i3]⟩

theorem storage_remap {q : Quantizer} (hq : Valid q) {rows : List (Nat × List Int)} (h : Sized q rows) (m : Mapping) (hm : ∀ r ∈ rows, m r.1 ≠ some none) :
    Storage.remap ⟨q, (columns q.codeLen (coded q rows)).flatten, rows.map Prod.fst⟩ m =
      some ⟨q, (columns q.codeLen (coded q (survivors m rows))).flatten, (survivors m rows).map Prod.fst⟩ := by
  obtain ⟨k1, k2, k3⟩ := keptFrom_all rows 0 hm
  have hcl := codeLen_pos hq
  have hlen : (columns q.codeLen (coded q rows)).flatten.length = rows.length * q.codeLen := by rw [columns_flatten_length, coded_length]
  have hcoded : coded q (survivors m rows) = coded q rows := by
    unfold coded
    have : ∀ l : List (Nat × List Int), l.map (fun r => codeD q r.2) = (l.map Prod.snd).map (codeD q) := by intro l; rw [List.map_map]; rfl
    rw [this, this, k3]
  unfold Storage.remap
  simp only
  unfold fsl
  rw [if_neg (by omega), if_pos (by rw [hlen]; simp)]
  simp only [k1]
  have hz1 : ((List.range' 0 rows.length).zip ((survivors m rows).map Prod.fst)).map Prod.fst = List.range' 0 rows.length :=
    List.map_fst_zip (by simp [k2])
  have hz2 : ((List.range' 0 rows.length).zip ((survivors m rows).map Prod.fst)).map Prod.snd = (survivors m rows).map Prod.fst :=
    List.map_snd_zip (by simp [k2])
  rw [hz1, hz2]
  have hck : (chunksExact q.codeLen (columns q.codeLen (coded q rows)).flatten).length = rows.length := by
    rw [chunksExact_length, hlen, Nat.mul_div_cancel _ hcl]
  have := pick_all (chunksExact q.codeLen (columns q.codeLen (coded q rows)).flatten) [] (chunksExact q.codeLen (columns q.codeLen (coded q rows)).flatten) rfl
  rw [List.length_nil, hck] at this
  rw [this]
  simp only [Storage.new, if_true]
  rw [chunksExact_join hcl hlen, hcoded]

theorem pick_kept {α : Type} (f : List Int → α) (m : Mapping) (l : List α) : ∀ (rows : List (Nat × List Int)) (pre : List α), l = pre ++ rows.map (fun r => f r.2) →
    pick l ((keptFrom m pre.length (rows.map Prod.fst)).map Prod.fst) = some ((survivors m rows).map (fun r => f r.2)) ∧
    (keptFrom m pre.length (rows.map Prod.fst)).map Prod.snd = (survivors m rows).map Prod.fst
  | [], _, _ => ⟨rfl, rfl⟩
  | (id, v) :: rows, pre, h => by
    obtain ⟨i1, i2⟩ := pick_kept f m l rows (pre ++ [f v]) (by rw [h]; simp)
    simp only [List.length_append, List.length_cons, List.length_nil, Nat.zero_add] at i1 i2
    have h0 : l[pre.length]? = some (f v) := by rw [h]; simp
    simp only [List.map_cons]
    unfold keptFrom survivors Mapping.apply
    cases hm : m id with
    | none =>
      simp only [Option.getD_none, List.map_cons]
      unfold pick
      rw [i1, h0, i2]
      exact ⟨rfl, rfl⟩
    | some o =>
      cases o with
      | none => exact ⟨i1, i2⟩
      | some id' =>
        simp only [Option.getD_some, List.map_cons]
        unfold pick
        rw [i1, h0, i2]
        exact ⟨rfl, rfl⟩

theorem columns_one {rows : List (List Nat)} (h : ∀ r ∈ rows, r.length = 1) : (columns 1 rows).flatten = rows.flatten := by
  unfold columns
  simp only [List.range_one, List.map_cons, List.map_nil, List.flatten_cons, List.flatten_nil, List.append_nil]
  induction rows with
  | nil => rfl
  | cons r rows ih =>
    simp only [List.map_cons, List.flatten_cons]
    rw [ih (fun x hx => h x (List.mem_cons_of_mem _ hx))]
    match r, h r List.mem_cons_self with
    | [a], _ => rfl

theorem chunks_one {rows : List (List Nat)} (h : ∀ r ∈ rows, r.length = 1) : chunksExact 1 rows.flatten = rows := by
  apply chunksExact_flatten (by decide) h

end Verif.Pq
