import Verif.Pq.LemmasCode
/-! # Product quantization: distances of codes -/
namespace Verif.Pq

/-! ## Two codes in a byte -/

/-- The numbers of centroids that bytes stand for. -/
def unpack (bits : Nat) (bytes : List Nat) : List Nat := if bits = 4 then bytes.flatMap (fun c => [c % 16, c / 16]) else bytes

theorem byte_eq {a b : Nat} (ha : a < 16) (hb : b < 16) : ((b <<< 4) % 256) ||| a = 16 * b + a := by
  have h1 : b <<< 4 = 16 * b := by rw [Nat.shiftLeft_eq]; omega
  rw [Nat.mod_eq_of_lt (by omega), ← Nat.shiftLeft_add_eq_or_of_lt (by omega : a < 2 ^ 4), h1]

theorem pack_spec : ∀ (n : Nat) (ks : List Nat), ks.length = 2 * n → (∀ k ∈ ks, k < 16) →
    (pack ks).length = n ∧ (∀ c ∈ pack ks, c < 256) ∧ (pack ks).flatMap (fun c => [c % 16, c / 16]) = ks
  | 0, ks, h, _ => by
    have : ks = [] := List.length_eq_zero_iff.1 (by omega)
    subst this; simp [pack]
  | n + 1, ks, h, hk => by
    match ks, h, hk with
    | a :: b :: r, h, hk =>
      simp only [List.length_cons] at h
      have ha := hk a (by simp)
      have hb := hk b (by simp)
      obtain ⟨h1, h2, h3⟩ := pack_spec n r (by omega) (fun x hx => hk x (by simp [hx]))
      refine ⟨by simp [pack, h1], ?_, ?_⟩
      · intro c hc
        simp only [pack, List.mem_cons] at hc
        rcases hc with rfl | hc
        · rw [byte_eq ha hb]; omega
        · exact h2 c hc
      · simp only [pack, List.flatMap_cons, byte_eq ha hb, h3]
        rw [show (16 * b + a) % 16 = a by omega, show (16 * b + a) / 16 = b by omega]
        rfl
    | [_], h, _ => simp at h; omega
    | [], h, _ => simp at h

/-! ## Codes of vectors -/

/-- The bytes are a code of the vector: they stand for its quantization. -/
structure CodeFor (q : Quantizer) (v : List Int) (bytes : List Nat) : Prop where
  len : bytes.length = q.codeLen
  small : ∀ c ∈ bytes, c < 256
  choice : Choice q (unpack q.bits bytes)
  best : ∀ ks', Choice q ks' → q.metric.dist v (reconstruct q (unpack q.bits bytes)) ≤ q.metric.dist v (reconstruct q ks')

theorem codeOf_spec {q : Quantizer} (hq : Valid q) {v : List Int} (hv : v.length = q.dim) : ∃ bytes, codeOf q v = some bytes ∧ CodeFor q v bytes := by
  obtain ⟨ks, h1, h2, h3, h4⟩ := codesFrom_spec hq (subVectors q v) 0 (fun _ hx => subVectors_mem hx) (by rw [subVectors_length hq hv]; omega)
  rw [subVectors_length hq hv] at h2 h4
  have hw := hq.width
  have hw' : q.dim / q.subs = q.width := rfl
  have hch : Choice q ks := ⟨h2, h3⟩
  have hbest : ∀ ks', Choice q ks' → q.metric.dist v (reconstruct q ks) ≤ q.metric.dist v (reconstruct q ks') := by
    intro ks' hk'
    have := h4 ks' hk'.1 hk'.2
    rw [sumDist_eq hq _ hv hch, sumDist_eq hq _ hv hk'] at this
    omega
  unfold codeOf
  rw [hw', if_neg (by omega), show chunksExact q.width v = subVectors q v from rfl, h1]
  rcases hq.bits with hb | ⟨hb, he⟩
  · have hu : unpack q.bits ks = ks := by unfold unpack; rw [if_neg (by omega)]
    refine ⟨ks, by simp [hb], ?_, ?_, ?_, ?_⟩
    · unfold Quantizer.codeLen; rw [if_neg (by omega), h2]
    · intro c hc; have := h3 c hc; rw [hb] at this; exact this
    · rw [hu]; exact hch
    · rw [hu]; exact hbest
  · obtain ⟨p1, p2, p3⟩ := pack_spec (q.subs / 2) ks (by omega) (fun k hk => by have := h3 k hk; rw [hb] at this; exact this)
    have hu : unpack q.bits (pack ks) = ks := by unfold unpack; rw [if_pos hb, p3]
    refine ⟨pack ks, by simp [hb], ?_, p2, ?_, ?_⟩
    · unfold Quantizer.codeLen; rw [if_pos hb, p1]
    · rw [hu]; exact hch
    · rw [hu]; exact hbest

theorem codesOf_spec {q : Quantizer} (hq : Valid q) : ∀ (rows : List (List Int)), (∀ v ∈ rows, v.length = q.dim) →
    ∃ codes : List (List Nat), codesOf q rows = some codes.flatten ∧ codes.length = rows.length ∧
      ∀ (j : Nat) (v : List Int) (c : List Nat), rows[j]? = some v → codes[j]? = some c → CodeFor q v c
  | [], _ => ⟨[], rfl, rfl, by simp⟩
  | v :: rows, h => by
    obtain ⟨c, h1, h2⟩ := codeOf_spec hq (h v List.mem_cons_self)
    obtain ⟨cs, h3, h4, h5⟩ := codesOf_spec hq rows (fun x hx => h x (List.mem_cons_of_mem _ hx))
    refine ⟨c :: cs, by simp [codesOf, h1, h3], by simp [h4], ?_⟩
    intro j x y hx hy
    cases j with
    | zero => simp at hx hy; subst hx; subst hy; exact h2
    | succ j => rw [List.getElem?_cons_succ] at hx hy; exact h5 j x y hx hy

theorem codeLen_pos {q : Quantizer} (hq : Valid q) : 0 < q.codeLen := by
  have := hq.subs
  unfold Quantizer.codeLen
  rcases hq.bits with hb | ⟨hb, he⟩
  · rw [if_neg (by omega)]; exact this
  · rw [if_pos hb]; omega

/-- What is stored is the columns of the codes of the rows. -/
theorem build_spec {q : Quantizer} (hq : Valid q) (rows : List (Nat × List Int)) (h : ∀ r ∈ rows, r.2.length = q.dim) :
    ∃ codes : List (List Nat), codes.length = rows.length ∧
      Storage.build q rows = some ⟨q, (columns q.codeLen codes).flatten, rows.map Prod.fst⟩ ∧
      ∀ (j : Nat) (r : Nat × List Int) (c : List Nat), rows[j]? = some r → codes[j]? = some c → CodeFor q r.2 c := by
  have hm : ∀ v ∈ rows.map Prod.snd, v.length = q.dim := by
    intro v hv
    obtain ⟨r, hr, rfl⟩ := List.mem_map.1 hv
    exact h r hr
  obtain ⟨codes, h1, h2, h3⟩ := codesOf_spec hq (rows.map Prod.snd) hm
  rw [List.length_map] at h2
  have hs := hq.subs
  have hw := hq.width
  have hd : 0 < q.dim := by rw [hq.dim]; exact Nat.mul_pos hs hw
  have hcode : ∀ (j : Nat) (r : Nat × List Int) (c : List Nat), rows[j]? = some r → codes[j]? = some c → CodeFor q r.2 c := by
    intro j r c hr hc
    exact h3 j r.2 c (by rw [List.getElem?_map, hr]; rfl) hc
  refine ⟨codes, h2, ?_, hcode⟩
  have hq2 : quantize q (rows.map Prod.snd) = some codes.flatten := by
    unfold quantize
    rw [if_pos (by rcases hq.bits with hb | hb; exact Or.inr hb; exact Or.inl hb.1), if_neg, if_neg (by omega), chunksExact_flatten hd hm, h1]
    rintro ⟨hb, ho⟩
    rcases hq.bits with hb' | ⟨_, he⟩
    · omega
    · exact ho he
  have hl : ∀ c ∈ codes, c.length = q.codeLen := by
    intro c hc
    obtain ⟨j, hj, rfl⟩ := List.mem_iff_getElem.1 hc
    have hj' : j < rows.length := by omega
    exact (hcode j rows[j] codes[j] (List.getElem?_eq_getElem hj') (List.getElem?_eq_getElem hj)).len
  unfold Storage.build
  simp only [hq2, Storage.new, List.length_map]
  rw [← h2, transpose_eq hl (codeLen_pos hq)]
  rfl

/-! ## One row -/

section
variable {q : Quantizer} {m : Metric} {query : List Int} {t : List Int}

theorem sumEntries_8 (hb : q.bits = 8) (ht : ∀ (j k : Nat) (v : List Int), (subVectors q query)[j]? = some v → k < 2 ^ q.bits → t[j * 2 ^ q.bits + k]? = some (m.dist v (centroid q j k)))
    (hl : (subVectors q query).length = q.subs) : ∀ (bytes : List Nat) (i : Nat), i + bytes.length = q.subs → (∀ c ∈ bytes, c < 256) →
      sumEntries 8 t i bytes = some (sumDist m ((subVectors q query).drop i) (centroidsFrom q i bytes))
  | [], i, _, _ => by simp [sumEntries, sumDist, centroidsFrom]
  | c :: bytes, i, hi, hc => by
    simp only [List.length_cons] at hi
    have ih := sumEntries_8 hb ht hl bytes (i + 1) (by omega) (fun x hx => hc x (List.mem_cons_of_mem _ hx))
    have hlt : i < (subVectors q query).length := by omega
    have := ht i c _ (List.getElem?_eq_getElem hlt) (by rw [hb]; exact hc c List.mem_cons_self)
    rw [hb] at this
    unfold sumEntries
    rw [if_neg (by omega), this, ih, List.drop_eq_getElem_cons hlt]
    simp only [sumDist, centroidsFrom, List.zipWith_cons_cons, List.sum_cons]

theorem sumEntries_4 (hb : q.bits = 4) (ht : ∀ (j k : Nat) (v : List Int), (subVectors q query)[j]? = some v → k < 2 ^ q.bits → t[j * 2 ^ q.bits + k]? = some (m.dist v (centroid q j k)))
    (hl : (subVectors q query).length = q.subs) : ∀ (bytes : List Nat) (i : Nat), 2 * i + 2 * bytes.length = q.subs → (∀ c ∈ bytes, c < 256) →
      sumEntries 4 t i bytes = some (sumDist m ((subVectors q query).drop (2 * i)) (centroidsFrom q (2 * i) (bytes.flatMap (fun c => [c % 16, c / 16]))))
  | [], i, _, _ => by simp [sumEntries, sumDist, centroidsFrom]
  | c :: bytes, i, hi, hc => by
    simp only [List.length_cons] at hi
    have ih := sumEntries_4 hb ht hl bytes (i + 1) (by omega) (fun x hx => hc x (List.mem_cons_of_mem _ hx))
    have h1 : 2 * i < (subVectors q query).length := by omega
    have h2 : 2 * i + 1 < (subVectors q query).length := by omega
    have hcb := hc c List.mem_cons_self
    have e1 := ht (2 * i) (c % 16) _ (List.getElem?_eq_getElem h1) (by rw [hb]; omega)
    have e2 := ht (2 * i + 1) (c / 16) _ (List.getElem?_eq_getElem h2) (by rw [hb]; omega)
    rw [hb] at e1 e2
    have he : entries t i c = some (m.dist (subVectors q query)[2 * i] (centroid q (2 * i) (c % 16)), m.dist (subVectors q query)[2 * i + 1] (centroid q (2 * i + 1) (c / 16))) := by
      unfold entries
      rw [show i * 2 * 16 + c % 16 = 2 * i * 2 ^ 4 + c % 16 by omega, show (i * 2 + 1) * 16 + c / 16 = (2 * i + 1) * 2 ^ 4 + c / 16 by omega, e1, e2]
    unfold sumEntries
    rw [if_pos rfl, he, ih, List.drop_eq_getElem_cons h1, List.drop_eq_getElem_cons h2]
    simp only [Option.map_some, List.flatMap_cons, List.cons_append, List.nil_append, centroidsFrom, sumDist, List.zipWith_cons_cons, List.sum_cons]
    rw [show 2 * (i + 1) = 2 * i + 1 + 1 by omega]
    congr 1
    omega

theorem sumEntries_eq (hq : Valid q) (ht : ∀ (j k : Nat) (v : List Int), (subVectors q query)[j]? = some v → k < 2 ^ q.bits → t[j * 2 ^ q.bits + k]? = some (m.dist v (centroid q j k)))
    (hl : query.length = q.dim) {v : List Int} {bytes : List Nat} (hc : CodeFor q v bytes) :
    sumEntries q.bits t 0 bytes = some (m.dist query (reconstruct q (unpack q.bits bytes)) + m.extra q.subs) := by
  rw [← sumDist_eq hq m hl hc.choice]
  have hlen := hc.len
  unfold Quantizer.codeLen at hlen
  rcases hq.bits with hb | ⟨hb, he⟩
  · rw [if_neg (by omega)] at hlen
    have := sumEntries_8 hb ht (subVectors_length hq hl) bytes 0 (by omega) hc.small
    rw [hb, this, List.drop_zero]
    unfold unpack
    rw [if_neg (by omega)]
  · rw [if_pos hb] at hlen
    have := sumEntries_4 hb ht (subVectors_length hq hl) bytes 0 (by omega) hc.small
    rw [hb, this, Nat.mul_zero, List.drop_zero]
    unfold unpack
    rw [if_pos rfl]

end

theorem strided_columns {c j : Nat} {codes : List (List Nat)} {r : List Nat} (hr : codes[j]? = some r) (hl : r.length = c) :
    strided (columns c codes).flatten j codes.length = r := by
  have hj : j < codes.length := by
    rcases Nat.lt_or_ge j codes.length with h | h
    · exact h
    · rw [List.getElem?_eq_none h] at hr; exact absurd hr (by simp)
  have hcl : (columns c codes).flatten.length = codes.length * c := by
    rw [length_flatten_eq (k := codes.length) (fun x hx => columns_mem_length hx)]
    simp [columns]
  unfold strided
  have hn : (codes.length * c - j + codes.length - 1) / codes.length = c := by
    rcases Nat.eq_zero_or_pos c with hz | hz
    · subst hz
      rw [Nat.mul_zero, Nat.zero_sub, Nat.zero_add]
      exact Nat.div_eq_of_lt (by omega)
    · have hle : codes.length ≤ codes.length * c := Nat.le_mul_of_pos_right _ hz
      have e : codes.length * c - j + codes.length - 1 = codes.length * c + (codes.length - 1 - j) := by omega
      rw [e, Nat.mul_add_div (by omega), Nat.div_eq_of_lt (by omega)]; rfl
  rw [hcl, hn]
  have hall : ∀ i ∈ List.range c, (columns c codes).flatten[j + i * codes.length]? = some (r.getD i default) := by
    intro i hi
    have hi := List.mem_range.1 hi
    rw [Nat.add_comm, flatten_getElem? (fun x hx => columns_mem_length hx) hj, columns_getElem? _ hi]
    simp [hr]
  have : ∀ l : List Nat, (∀ i ∈ l, (columns c codes).flatten[j + i * codes.length]? = some (r.getD i default)) →
      l.filterMap (fun i => (columns c codes).flatten[j + i * codes.length]?) = l.map (fun i => r.getD i default) := by
    intro l
    induction l with
    | nil => intro _; rfl
    | cons a l ih =>
      intro h
      rw [List.filterMap_cons, h a List.mem_cons_self, ih (fun x hx => h x (List.mem_cons_of_mem _ hx)), List.map_cons]
  rw [this _ hall]
  apply List.ext_getElem?
  intro i
  by_cases hi : i < c
  · rw [List.getElem?_map, List.getElem?_range hi]
    simp [List.getD_eq_getElem?_getD, List.getElem?_eq_getElem (show i < r.length by omega)]
  · rw [List.getElem?_eq_none (by simp; omega), List.getElem?_eq_none (by omega)]

theorem columns_flatten_length {c : Nat} {codes : List (List Nat)} : (columns c codes).flatten.length = codes.length * c := by
  rw [length_flatten_eq (k := codes.length) (fun x hx => columns_mem_length hx)]
  simp [columns]

/-- `distance(id)` is the distance of the query and the quantized vector, plus what the metric adds. -/
theorem distance_spec {q : Quantizer} (hq : Valid q) {codes : List (List Nat)} {ids : List Nat} {query : List Int} (hl : query.length = q.dim) {j : Nat}
    {v : List Int} {c : List Nat} (hj : codes[j]? = some c) (hc : CodeFor q v c) :
    Storage.distance ⟨q, (columns q.codeLen codes).flatten, ids⟩ query j =
      some (unit * (q.metric.dist query (reconstruct q (unpack q.bits c)) + q.metric.extra q.subs)) := by
  obtain ⟨t, h1, _, h3⟩ := table_spec hq q.metric hl
  have hcl := codeLen_pos hq
  have hjl : j < codes.length := by
    rcases Nat.lt_or_ge j codes.length with h | h
    · exact h
    · rw [List.getElem?_eq_none h] at hj; exact absurd hj (by simp)
  have hat : Storage.codeAt ⟨q, (columns q.codeLen codes).flatten, ids⟩ j = some c := by
    unfold Storage.codeAt
    simp only [columns_flatten_length, Nat.mul_div_cancel _ hcl]
    rw [if_neg (by omega), strided_columns hj hc.len]
  unfold Storage.distance
  simp only [h1, hat]
  rw [sumEntries_eq hq h3 hl hc]
  rfl

/-! ## All rows, 8 bits -/

theorem addChunk_spec {t : List Int} : ∀ (c : List Nat) (ds : List Int), c.length = ds.length → (∀ k ∈ c, k < t.length) →
    ∃ r, addChunk t c ds = some r ∧ r.length = ds.length ∧ ∀ (j : Nat) (d : Int) (k : Nat), ds[j]? = some d → c[j]? = some k → ∃ x, t[k]? = some x ∧ r[j]? = some (d + x)
  | [], [], _, _ => ⟨[], rfl, rfl, by simp⟩
  | k :: c, d :: ds, h, hk => by
    obtain ⟨r, h1, h2, h3⟩ := addChunk_spec c ds (by simpa using h) (fun x hx => hk x (List.mem_cons_of_mem _ hx))
    have hkl := hk k List.mem_cons_self
    refine ⟨(d + t[k]) :: r, by simp only [addChunk, List.getElem?_eq_getElem hkl, h1], by simp [h2], ?_⟩
    intro j d' k' hd hk'
    cases j with
    | zero =>
      simp at hd hk'; subst hd; subst hk'
      exact ⟨t[k], List.getElem?_eq_getElem hkl, by simp⟩
    | succ j => rw [List.getElem?_cons_succ] at hd hk'; rw [List.getElem?_cons_succ]; exact h3 j d' k' hd hk'
  | [], _ :: _, h, _ => by simp at h
  | _ :: _, [], h, _ => by simp at h

theorem room_256 {s n l : Nat} (h : (s + (n + 1)) * 256 ≤ l) : s * 256 ≤ (s + 1) * 256 ∧ (s + 1) * 256 ≤ l ∧ (s + 1 + n) * 256 ≤ l ∧ (s + 1) * 256 - s * 256 = 256 ∧
    min 256 (l - s * 256) = 256 := by omega

theorem sumChunks_spec {t : List Int} (cs : List (List Nat)) : ∀ (s : Nat) (ds : List Int), (∀ c ∈ cs, c.length = ds.length ∧ ∀ k ∈ c, k < 256) →
    (s + cs.length) * 256 ≤ t.length →
    ∃ r, sumChunks t s cs ds = some r ∧ r.length = ds.length ∧
      ∀ (j : Nat) (d : Int), ds[j]? = some d → ∃ x, sumEntries 8 t s (cs.map (fun c => c.getD j default)) = some x ∧ r[j]? = some (d + x) := by
  induction cs with
  | nil => exact fun s ds _ _ => ⟨ds, rfl, rfl, fun j d h => ⟨0, rfl, by simp [h]⟩⟩
  | cons c cs ih =>
    intro s ds hc ht
    obtain ⟨m1, m2, m3, m4, m5⟩ := room_256 (show (s + (cs.length + 1)) * 256 ≤ t.length from ht)
    obtain ⟨h1, h2⟩ := hc c List.mem_cons_self
    have hs : slice t (s * 256) ((s + 1) * 256) = some ((t.drop (s * 256)).take 256) := by
      unfold slice
      rw [if_pos ⟨m1, m2⟩, m4]
    have hsl : ((t.drop (s * 256)).take 256).length = 256 := by rw [List.length_take, List.length_drop, m5]
    obtain ⟨r1, a1, a2, a3⟩ := addChunk_spec (t := (t.drop (s * 256)).take 256) c ds h1 (fun k hk => by rw [hsl]; exact h2 k hk)
    obtain ⟨r, b1, b2, b3⟩ := ih (s + 1) r1 (fun x hx => by rw [a2]; exact hc x (List.mem_cons_of_mem _ hx)) m3
    refine ⟨r, by simp only [sumChunks, hs, a1]; exact b1, by omega, ?_⟩
    intro j d hd
    have hj : j < ds.length := by
      rcases Nat.lt_or_ge j ds.length with h | h
      · exact h
      · rw [List.getElem?_eq_none h] at hd; exact absurd hd (by simp)
    have hck : c[j]? = some c[j] := List.getElem?_eq_getElem (by omega)
    obtain ⟨x, x1, x2⟩ := a3 j d _ hd hck
    obtain ⟨y, y1, y2⟩ := b3 j _ x2
    have hk256 : c[j] < 256 := h2 _ (List.getElem_mem _)
    have hx : t[s * 2 ^ 8 + c[j]]? = some x := by
      rw [List.getElem?_take_of_lt hk256, List.getElem?_drop] at x1
      exact x1
    refine ⟨x + y, ?_, by rw [y2]; congr 1; omega⟩
    simp only [List.map_cons, sumEntries]
    rw [if_neg (by omega), List.getD_eq_getElem?_getD, hck, Option.getD_some, hx, y1]

theorem distanceAll_8 {q : Quantizer} (hq : Valid q) (hb : q.bits = 8) (a : Arch) {codes : List (List Nat)} {ids : List Nat} {query : List Int} (hl : query.length = q.dim)
    (hc : ∀ (j : Nat) (c : List Nat), codes[j]? = some c → ∃ v, CodeFor q v c) :
    Storage.distanceAll a ⟨q, (columns q.codeLen codes).flatten, ids⟩ query =
      some (codes.map (fun c => unit * (q.metric.dist query (reconstruct q (unpack q.bits c)) + q.metric.extra q.subs))) := by
  obtain ⟨t, h1, h2, h3⟩ := table_spec hq q.metric hl
  have hcl := codeLen_pos hq
  have hcs : q.codeLen = q.subs := by unfold Quantizer.codeLen; rw [if_neg (by omega)]
  have hs := hq.subs
  unfold Storage.distanceAll
  simp only [h1]
  unfold computeDistances
  by_cases he : codes = []
  · subst he
    have : (columns q.codeLen ([] : List (List Nat))).flatten = [] := by
      apply List.length_eq_zero_iff.1
      rw [columns_flatten_length]; simp
    rw [if_pos this]; rfl
  · have hn : 0 < codes.length := List.length_pos_iff.2 he
    have hpos : 0 < codes.length * q.codeLen := Nat.mul_pos hn hcl
    have hne : (columns q.codeLen codes).flatten ≠ [] := by
      intro h
      have := congrArg List.length h
      rw [columns_flatten_length, List.length_nil] at this
      omega
    rw [if_neg hne, if_neg (by omega)]
    unfold distances8
    rw [columns_flatten_length, hcs, Nat.mul_div_cancel _ hs, if_neg (by omega), chunksExact_flatten hn (fun x hx => columns_mem_length hx)]
    obtain ⟨r, r1, r2, r3⟩ := sumChunks_spec (t := t) (columns q.subs codes) 0 (List.replicate codes.length 0)
      (by
        intro x hx
        refine ⟨by rw [columns_mem_length hx, List.length_replicate], ?_⟩
        intro k hk
        unfold columns at hx
        obtain ⟨s, hsr, rfl⟩ := List.mem_map.1 hx
        obtain ⟨c, hcm, rfl⟩ := List.mem_map.1 hk
        obtain ⟨j, hj, rfl⟩ := List.mem_iff_getElem.1 hcm
        obtain ⟨v, hv⟩ := hc j _ (List.getElem?_eq_getElem hj)
        have hlen := hv.len
        have hsr := List.mem_range.1 hsr
        rw [List.getD_eq_getElem?_getD, List.getElem?_eq_getElem (show s < codes[j].length by omega)]
        exact hv.small _ (List.getElem_mem _))
      (by rw [h2, hb]; simp [columns])
    rw [r1]
    simp only [Option.map_some]
    congr 1
    apply List.ext_getElem?
    intro j
    by_cases hj : j < codes.length
    · obtain ⟨x, x1, x2⟩ := r3 j 0 (by simp [hj])
      obtain ⟨v, hv⟩ := hc j _ (List.getElem?_eq_getElem hj)
      have hrow := columns_row (c := q.subs) (List.getElem?_eq_getElem hj) (by rw [hv.len, hcs])
      rw [hrow] at x1
      have := sumEntries_eq hq h3 hl hv
      rw [hb, x1] at this
      rw [List.getElem?_map, x2, List.getElem?_map, List.getElem?_eq_getElem hj, hb]
      simp only [Option.map_some, Int.zero_add]
      rw [Option.some.inj this]
    · rw [List.getElem?_eq_none (by simp only [List.length_map, r2, List.length_replicate]; omega), List.getElem?_eq_none (by simp; omega)]

end Verif.Pq
