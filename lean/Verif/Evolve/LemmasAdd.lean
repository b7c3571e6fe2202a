import Verif.Evolve.LemmasProject
namespace Verif.Evolve

/-! ### A new file for each fragment -/

theorem restore_eq {lg : Bool} {s : Tr Attr} {fr : Frag} (hf : FragOk lg s fr) {nb r : Data} (hn : nb.n = (alive fr.phys fr.del).length)
    (h : restore fr.del nb = some r) : r = nb.pick (blanks fr.phys fr.del) ∧ r.n = fr.phys ∧ (fr.del = [] ∨ 0 < nb.n) := by
  have hl := alive_length hf.del.1 hf.del.2
  unfold restore at h
  simp only at h
  split at h
  · rename_i hc
    simp only [Option.some.injEq] at h
    rw [hn, hl] at h
    subst h
    simp only [Bool.and_eq_true, Bool.or_eq_true, decide_eq_true_eq, beq_iff_eq] at hc
    refine ⟨rfl, by simp [Data.pick], ?_⟩
    rcases hc.2 with h | h
    · exact Or.inr h
    · exact Or.inl h
  · cases h

theorem updateFrag_zip {lg : Bool} {s reads : Tr Attr} {Z : Tr (Attr × Col)} {f : Data → Option Data} {fr fr' : Frag} {rb nb : Data} (hf : FragOk lg s fr)
    (hr : readFrag true s reads fr = some rb) (hn : rb.n = (alive fr.phys fr.del).length) (hnb : f rb = some nb)
    (hz : ∀ z ∈ Z.roots, colByName z.1.1.name nb.cols = some (z.1.2, z.2.map Prod.snd))
    (h : updateFrag lg s reads (Z.map Prod.fst) f fr = some fr') :
    nb.n = rb.n ∧ (fr.del = [] ∨ 0 < nb.n) ∧ fr' = fr.addFile (fileOf lg fr.phys (pickZ (blanks fr.phys fr.del) Z)) ∧
      verifyNulls (Z.map Prod.fst) (pickCols (blanks fr.phys fr.del) nb.cols) = true := by
  unfold updateFrag at h
  rw [hr] at h
  simp only at h
  rw [hnb] at h
  simp only at h
  split at h
  case isFalse => cases h
  rename_i hne
  cases e : restore fr.del nb with
  | none => rw [e] at h; cases h
  | some r =>
    rw [e] at h
    simp only at h
    obtain ⟨h1, h2, h3⟩ := restore_eq hf (hne.symm.trans hn) e
    cases e2 : writeFile lg (Z.map Prod.fst) r with
    | none => rw [e2] at h; cases h
    | some file =>
      rw [e2] at h
      simp only [Option.map_some, Option.some.injEq] at h
      have e3 := e2
      rw [← pickZ_fst (blanks fr.phys fr.del)] at e3
      obtain ⟨g1, g2, _⟩ := writeFile_zip (b := r) (by rw [h1]; exact pickZ_roots hz) e3
      refine ⟨hne.symm, h3, ?_, ?_⟩
      · rw [← h, g1, h2]
        rfl
      · rw [pickZ_fst, h1] at g2
        exact g2

theorem strict_append : ∀ {s t : Tr Attr}, strict (s.append t) = strict s ++ strict t
  | .nil, _ => rfl
  | .cons a k r, t => by
    simp only [Tr.append, strict, strict_append (s := r), List.cons_append, List.append_assoc]

theorem strict_ids {s : Tr Attr} {a : Attr} (h : a ∈ strict s) : a.id ∈ ids s := List.mem_map_of_mem (strict_flat h)

def withFile {β : Type} (lg : Bool) (W : Tr (Attr × β)) (p : Frag × (β → Col)) : Frag :=
  p.1.addFile (fileOf lg p.1.phys (pickZ (blanks p.1.phys p.1.del) (W.map (fun x => (x.1, p.2 x.2)))))

theorem added_ok {β : Type} {lg : Bool} {s : Tr Attr} {W : Tr (Attr × β)} {l : List (Frag × (β → Col))}
    (hfr : ∀ p ∈ l, FragOk lg s p.1) (hid : (ids (W.map Prod.fst)).Nodup)
    (hfresh : ∀ i ∈ ids (W.map Prod.fst), i ∉ ids s ∧ ∀ p ∈ l, i ∉ p.1.files.flatMap File.ids)
    (hC : ∀ p ∈ l, ∀ x ∈ W.flat, (p.2 x.2).kind = x.1.kind ∧ (x.1.kind ≠ .struct → (p.2 x.2).vals.length = (alive p.1.phys p.1.del).length))
    (hnull : ∀ p ∈ l, verifyNulls (W.map Prod.fst) (pickCols (blanks p.1.phys p.1.del) ((W.map Prod.snd).map p.2)) = true) :
    (∀ fr ∈ l.map (withFile lg W), FragOk lg (s.append (W.map Prod.fst)) fr) ∧ absN (l.map (withFile lg W)) = absN (l.map Prod.fst) ∧
    (∀ i ∈ ids s, absVals (l.map (withFile lg W)) i = absVals (l.map Prod.fst) i) ∧
    ∀ x ∈ W.flat, x.1.kind ≠ .struct → absVals (l.map (withFile lg W)) x.1.id = l.flatMap (fun p => (p.2 x.2).vals) := by
  have hfst : ∀ (p : Frag × (β → Col)), (W.map (fun x => (x.1, p.2 x.2))).map Prod.fst = W.map Prod.fst := by
    intro p
    rw [Tr.map_map]
  have hsnd : ∀ (p : Frag × (β → Col)), (W.map (fun x => (x.1, p.2 x.2))).map Prod.snd = (W.map Prod.snd).map p.2 := by
    intro p
    rw [Tr.map_map, Tr.map_map]
  refine ⟨?_, ?_, ?_, ?_⟩
  · intro fr hm
    obtain ⟨p, hp, rfl⟩ := List.mem_map.1 hm
    have hf := hfr p hp
    have hids : ids ((pickZ (blanks p.1.phys p.1.del) (W.map (fun x => (x.1, p.2 x.2)))).map Prod.fst) = ids (W.map Prod.fst) := by
      rw [pickZ_fst, hfst]
    have hsame : ∀ a ∈ (s.append (W.map Prod.fst)).flat, a.id ∈ ids (W.map Prod.fst) → a ∈ (W.map Prod.fst).flat := by
      intro a ha hi
      rw [Tr.flat_append, List.mem_append] at ha
      rcases ha with ha | ha
      · exact absurd (List.mem_map_of_mem ha) (hfresh _ hi).1
      · exact ha
    refine fragOk_addFile hf.nodup hf.rows hf.format hf.del (by rw [hids]; exact hid) (by rw [hids]; exact fun i hi => (hfresh i hi).2 p hp) ?_ ?_ ?_ ?_ ?_ ?_ ?_
    · intro x hx hk
      rw [pickZ, Tr.map_map, Tr.flat_map] at hx
      obtain ⟨y, hy, rfl⟩ := List.mem_map.1 hx
      simp only at hk
      have := (hC p hp y hy).1
      simp only [pickC]
      rw [this, if_neg hk]
      simp [pickVals, blanks]
    · have h1 := hnull p hp
      rw [← hsnd p, ← pickZ_snd, ← hfst p, ← pickZ_fst (blanks p.1.phys p.1.del)] at h1
      exact verifyNulls_zip.1 h1
    · intro t ht
      rw [hids]
      rw [Tr.roots_append, List.mem_append] at ht
      rcases ht with ht | ht
      · right
        rcases hf.whole t ht with h | ⟨h1, h2, h3⟩
        · exact Or.inl h
        · refine Or.inr ⟨h1, ?_, h2, h3⟩
          intro i hi c
          exact (hfresh i c).1 (mem_ids_root.2 ⟨t, ht, hi⟩)
      · left
        intro i hi
        exact mem_ids_root.2 ⟨t, ht, hi⟩
    · intro a ha hk v hv
      rw [Tr.flat_append, List.mem_append] at ha
      rcases ha with ha | ha
      · exact hf.len a ha hk v hv
      · rw [lookup_none ((hfresh a.id (List.mem_map_of_mem ha)).2 p hp)] at hv
        cases hv
    · intro a ha hk v hv
      rw [strict_append, List.mem_append] at ha
      rcases ha with ha | ha
      · exact hf.nonnull a ha hk v hv
      · rw [lookup_none ((hfresh a.id (strict_ids ha)).2 p hp)] at hv
        cases hv
    · intro a ha hi
      rw [hids] at hi
      have h1 := hsame a ha hi
      rw [← hfst p, ← pickZ_fst (blanks p.1.phys p.1.del), Tr.flat_map] at h1
      obtain ⟨y, hy, e⟩ := List.mem_map.1 h1
      exact ⟨y, hy, e⟩
    · intro a ha hi
      rw [hids] at hi
      rw [strict_append, List.mem_append] at ha
      rcases ha with ha | ha
      · exact absurd (strict_ids ha) (hfresh _ hi).1
      · rw [← hfst p, ← pickZ_fst (blanks p.1.phys p.1.del), ← strictZ_fst] at ha
        obtain ⟨y, hy, e⟩ := List.mem_map.1 ha
        exact ⟨y, hy, e⟩
  · unfold absN
    rw [List.map_map, List.map_map]
    rfl
  · intro i hi
    unfold absVals
    rw [List.flatMap_map, List.flatMap_map]
    congr 1
    funext p
    unfold withFile
    rw [addFile_colVals_old (by rw [fileOf_ids, pickZ_fst, hfst]; exact fun c => (hfresh i c).1 hi)]
    rfl
  · intro x hx hk
    unfold absVals
    rw [List.flatMap_map]
    have : ∀ p ∈ l, pickVals (alive (withFile lg W p).phys (withFile lg W p).del) ((withFile lg W p).colVals x.1.id) = (p.2 x.2).vals := by
      intro p hp
      unfold withFile
      have h1 := addFile_colVals_new (lg := lg) (fr := p.1) (Z := pickZ (blanks p.1.phys p.1.del) (W.map (fun x => (x.1, p.2 x.2))))
        (by rw [pickZ_fst, hfst]; exact hid) (by rw [pickZ_fst, hfst]; exact fun i hi => (hfresh i hi).2 p hp)
        (pickZ_flat (rows := blanks p.1.phys p.1.del) (by rw [Tr.flat_map]; exact List.mem_map.2 ⟨x, hx, rfl⟩))
      simp only at h1
      rw [h1]
      obtain ⟨h2, h3⟩ := hC p hp x hx
      simp only [pickC, Frag.addFile]
      rw [h2, if_neg hk]
      exact pick_blanks (hfr p hp).del.1 (h3 hk)
    clear hfr hfresh hC hnull
    induction l with
    | nil => rfl
    | cons p l ih =>
      rw [List.flatMap_cons, List.flatMap_cons, this p (by simp), ih (fun q hq => this q (by simp [hq]))]

/-! ### Rows across fragments -/

theorem rows_concat {cell : Frag → Nat → Cell} : ∀ (frags : List Frag) (off : Nat) (G : Nat → Cell),
    (∀ pre fr post, frags = pre ++ fr :: post → ∀ i, i < (alive fr.phys fr.del).length → cell fr i = G (off + absN pre + i)) →
    frags.flatMap (fun fr => (List.range (alive fr.phys fr.del).length).map (cell fr)) = (List.range (absN frags)).map (fun j => G (off + j))
  | [], _, _, _ => rfl
  | fr :: frags, off, G, h => by
    have hn : absN (fr :: frags) = (alive fr.phys fr.del).length + absN frags := by simp [absN]
    rw [List.flatMap_cons, hn, List.range_add, List.map_append, List.map_map]
    congr 1
    · apply List.map_congr_left
      intro i hi
      have := h [] fr frags rfl i (List.mem_range.1 hi)
      simpa [absN] using this
    · rw [rows_concat frags (off + (alive fr.phys fr.del).length) G]
      · apply List.map_congr_left
        intro j _
        simp only [Function.comp, Nat.add_assoc]
      · intro pre g post e i hi
        have := h (fr :: pre) g post (by rw [e]; rfl) i hi
        rw [this]
        congr 1
        have hp : absN (fr :: pre) = (alive fr.phys fr.del).length + absN pre := by simp [absN]
        omega

theorem absVals_at {pre post : List Frag} {fr : Frag} (i : Int) {j : Nat} (hj : j < (alive fr.phys fr.del).length) :
    (absVals (pre ++ fr :: post) i).getD (absN pre + j) none = (pickVals (alive fr.phys fr.del) (fr.colVals i)).getD j none := by
  rw [absVals_append, List.getD_eq_getElem?_getD, List.getElem?_append_right (by rw [absVals_length]; omega), absVals_length]
  have : absVals (fr :: post) i = pickVals (alive fr.phys fr.del) (fr.colVals i) ++ absVals post i := by simp [absVals]
  rw [this, show absN pre + j - absN pre = j by omega, List.getElem?_append_left (by simpa [pickVals] using hj), ← List.getD_eq_getElem?_getD]

theorem colAt_field {f : Attr → Col} (hf : ∀ a, (f a).name = a.name) : ∀ (q : List Nat) (s : Tr Attr), colAt q (s.map f) = (fieldAt q s).map (fun t => f t.1)
  | [], _ => rfl
  | [x], s => by
    unfold colAt fieldAt
    rw [colByName_map hf, Option.map_map]
    rfl
  | x :: y :: q, s => by
    unfold colAt fieldAt
    rw [colByName_map hf]
    cases byName x s with
    | none => rfl
    | some t =>
      simp only [Option.map_some]
      exact colAt_field hf (y :: q) t.2

/-! ### Adding computed columns -/

theorem readFine_has {s : Tr Attr} {paths : List (List Nat)} (h : ReadFine s paths) : ∀ q ∈ paths, hasAt q s = true ∧ wholeLists q s := by
  intro q hq
  obtain ⟨h1, h2⟩ := h q hq
  refine ⟨?_, h2⟩
  cases q with
  | nil => rfl
  | cons x q => rw [← fieldAt_hasAt]; exact h1

theorem roots_asked {s p : Tr Attr} (hs : SchemaOk s) {paths : List (List Nat)} (hr : ReadFine s paths) (h : project s paths .nil = some p) {t : Attr × Tr Attr}
    (ht : t ∈ p.roots) : ∃ q ∈ paths, q.head? = some t.1.name ∧ ∃ sk, (t.1, sk) ∈ s.roots := by
  obtain ⟨h1, h2, h3, h4⟩ := project_ok hs.distinct hs.shape (acc := .nil) trivial trivial (readFine_has hr) h
  have h5 := h3 [t.1.name]
  have h6 : hasAt [t.1.name] p = true := by
    unfold hasAt
    rw [byName_of_mem (distinct_names h2) ht]
    rfl
  rw [h6, hasAt_nil, Bool.false_or] at h5
  have h7 := h5.symm
  rw [Bool.and_eq_true] at h7
  obtain ⟨q, hq, hp⟩ := of_decide_eq_true h7.2
  refine ⟨q, hq, ?_, ?_⟩
  · have hne := h4 q hq
    cases q with
    | nil => exact absurd rfl hne
    | cons x q =>
      simp only [List.head?_cons, Option.some.injEq]
      rcases hp with hp | hp
      · exact (prefix_cons.1 hp).1.symm
      · exact (prefix_cons.1 hp).1
  · obtain ⟨sk, h8, _⟩ := sub_root h1 ht
    exact ⟨sk, (byName_mem h8).1⟩

/-- Reading the columns of a projection from a fragment. -/
theorem read_asked {d : Ds} (hi : Inv d) {p : Tr Attr} {paths : List (List Nat)} (hr : ReadFine d.schema paths) (hst : StoredFine d paths)
    (h : project d.schema paths .nil = some p) {fr : Frag} (hf : fr ∈ d.frags) :
    readFrag true d.schema p fr = some ⟨(alive fr.phys fr.del).length, p.map (L fr)⟩ := by
  obtain ⟨h1, h2, _, _⟩ := project_ok hi.schema.distinct hi.schema.shape (acc := .nil) trivial trivial (readFine_has hr) h
  refine readFrag_ok hi.schema (hi.frags fr hf) h1 h2 true ?_
  intro _
  rcases hst fr hf with h3 | h3
  · exact Or.inl h3
  · right
    intro t ht
    obtain ⟨q, hq, h4, sk, h5⟩ := roots_asked hi.schema hr h ht
    exact h3 q hq (t.1, sk) h5 h4

theorem outCols_map (out : Tr Out) (b : Data) : outCols out b =
    out.map (fun o => ⟨o.name, o.kind, o.nullable, if o.kind = .struct then [] else (List.range b.n).map (fun i => o.fn (rowAt b.cols i))⟩) := rfl

theorem added_inv {β : Type} {d : Ds} (hi : Inv d) {W : Tr (Attr × β)} {g : β → Attr}
    (hx : ∀ x ∈ W.flat, x.1 = { g x.2 with id := x.1.id }) (hids : ∀ i ∈ ids (W.map Prod.fst), d.maxFieldId < i) (hnd : (ids (W.map Prod.fst)).Nodup)
    (hshape : ShapeOk ((W.map Prod.snd).map g)) (hdist : Distinct Attr.name ((W.map Prod.snd).map g)) (hnew : namesNew d.schema ((W.map Prod.snd).map g) = true) :
    SchemaOk (d.schema.append (W.map Prod.fst)) ∧ (∀ i ∈ ids (W.map Prod.fst), i ∉ ids d.schema ∧ ∀ fr ∈ d.frags, i ∉ fr.files.flatMap File.ids) ∧
    Distinct Attr.name (W.map Prod.fst) ∧ (∀ t ∈ d.schema.roots, ∀ u ∈ (W.map Prod.fst).roots, u.1.name ≠ t.1.name) := by
  have hx' : ∀ x ∈ W.flat, x.1.name = (g x.2).name ∧ x.1.kind = (g x.2).kind := by
    intro x hm
    have := hx x hm
    constructor
    · rw [this]
    · rw [this]
  obtain ⟨hz1, hz2⟩ := zip_shape hx'
  have hfresh : ∀ i ∈ ids (W.map Prod.fst), i ∉ ids d.schema ∧ ∀ fr ∈ d.frags, i ∉ fr.files.flatMap File.ids := by
    intro i h
    have h1 := hids i h
    refine ⟨fun c => ?_, fun fr hfr c => ?_⟩
    · have := le_maxFieldId c; omega
    · have := le_maxFieldId_frag hfr c; omega
  have hnames : ∀ t ∈ d.schema.roots, ∀ u ∈ (W.map Prod.fst).roots, u.1.name ≠ t.1.name := by
    intro t ht u hu
    rw [Tr.roots_map] at hu
    obtain ⟨y, hy, rfl⟩ := List.mem_map.1 hu
    simp only
    rw [(hx' y.1 (Tr.root_mem_flat hy)).1]
    have h2 := namesNew_iff.1 hnew t ht (g y.1.2, (y.2.map Prod.snd).map g)
    refine h2 ?_
    rw [Tr.roots_map, Tr.roots_map, List.map_map]
    exact List.mem_map.2 ⟨y, hy, rfl⟩
  have hd := hz2.2 hdist
  refine ⟨schemaOk_append hi.schema hnd ?_ (fun i h => (hfresh i h).1) hd (hz1.2 hshape) hnames, hfresh, hd, hnames⟩
  intro i h
  have := hids i h
  have := maxFieldId_ge d
  omega

theorem append_eq_nil {α : Type} {s t : Tr α} (h : s.append t = .nil) : s = .nil := by cases s <;> simp [Tr.append] at h ⊢

theorem addUdf_ok {d d' : Ds} {reads : List (List Nat)} {out : Tr Out} (hi : Inv d) (hshape : ShapeOk (out.map Out.attr)) (hdist : Distinct Attr.name (out.map Out.attr))
    (hr : ReadFine d.schema reads) (hst : StoredFine d reads) (h : addUdf d reads out = some d') :
    Inv d' ∧ d'.table = ⟨d.table.n, specAdd reads out d.table⟩ := by
  unfold addUdf at h
  simp only at h
  split at h
  case isFalse => cases h
  rename_i hnew
  obtain ⟨W, w1, w2, w3, w4, w5⟩ := addedSchema_zip Out.attr hi hnew hdist
  cases e : project d.schema reads .nil with
  | none => rw [e] at h; cases h
  | some p =>
  subst w2
  obtain ⟨hsch, hfresh, hdW, hnames⟩ := added_inv hi w3 w4 w5 hshape hdist hnew
  have hx' : ∀ x ∈ W.flat, x.1.name = (Out.attr x.2).name ∧ x.1.kind = (Out.attr x.2).kind := by
    intro x hm
    have := w3 x hm
    constructor
    · rw [this]
    · rw [this]
  rw [e, w1, pbs_self Out.attr hx' hdW (fun u hu => by rw [byName_append_new hnames hu]; exact byName_of_mem (distinct_names hdW) hu)] at h
  simp only at h
  cases e2 : d.frags.mapM (updateFrag d.legacy d.schema p (W.map Prod.fst) (fun b => some ⟨b.n, outCols (W.map Prod.snd) b⟩)) with
  | none => rw [e2] at h; cases h
  | some frags =>
  rw [e2] at h
  simp only [Option.map_some, Option.some.injEq] at h
  -- the columns of each fragment
  let C : Frag → Out → Col := fun fr o => ⟨o.name, o.kind, o.nullable, if o.kind = .struct then [] else
    (List.range (alive fr.phys fr.del).length).map (fun i => o.fn (rowAt (p.map (L fr)) i))⟩
  obtain ⟨f1, f2⟩ := mapM_inv (g := fun fr => withFile d.legacy W (fr, C fr))
    (Q := fun fr => verifyNulls (W.map Prod.fst) (pickCols (blanks fr.phys fr.del) ((W.map Prod.snd).map (C fr))) = true) (by
      intro fr hfr fr' hu
      have hread := read_asked hi hr hst e hfr
      have hfst : (W.map (fun x => (x.1, C fr x.2))).map Prod.fst = W.map Prod.fst := by rw [Tr.map_map]
      have hsnd : (W.map (fun x => (x.1, C fr x.2))).map Prod.snd = (W.map Prod.snd).map (C fr) := by rw [Tr.map_map, Tr.map_map]
      rw [← hfst] at hu
      obtain ⟨_, _, g3, g4⟩ := updateFrag_zip (hi.frags fr hfr) hread rfl
        (nb := ⟨(alive fr.phys fr.del).length, (W.map Prod.snd).map (C fr)⟩) rfl (by
          intro z hz
          simp only
          rw [← hsnd]
          refine colByName_zip ?_ ?_ hz
          · intro y hy
            rw [Tr.roots_map] at hy
            obtain ⟨u, hu, rfl⟩ := List.mem_map.1 hy
            exact (hx' u.1 (Tr.root_mem_flat hu)).1
          · have := distinct_names hdW
            rw [← hfst, Tr.roots_map, List.map_map] at this
            exact this) hu
      refine ⟨g3, ?_⟩
      rw [hfst] at g4
      exact g4) e2
  have hl1 : (d.frags.map (fun fr => (fr, C fr))).map Prod.fst = d.frags := by
    rw [List.map_map]
    exact List.map_id' d.frags
  have hl2 : (d.frags.map (fun fr => (fr, C fr))).map (withFile d.legacy W) = frags := by
    rw [f1, List.map_map]
    rfl
  have hmem : ∀ q ∈ d.frags.map (fun fr => (fr, C fr)), ∃ fr ∈ d.frags, q = (fr, C fr) := by
    intro q hq
    obtain ⟨fr, hfr, rfl⟩ := List.mem_map.1 hq
    exact ⟨fr, hfr, rfl⟩
  obtain ⟨a1, a2, a3, a4⟩ := added_ok (lg := d.legacy) (s := d.schema) (W := W) (l := d.frags.map (fun fr => (fr, C fr)))
    (by intro q hq; obtain ⟨fr, hfr, rfl⟩ := hmem q hq; exact hi.frags fr hfr) w5
    (fun i hii => ⟨(hfresh i hii).1, by intro q hq; obtain ⟨fr, hfr, rfl⟩ := hmem q hq; exact (hfresh i hii).2 fr hfr⟩)
    (by
      intro q hq x hx
      obtain ⟨fr, hfr, rfl⟩ := hmem q hq
      refine ⟨(hx' x hx).2.symm, ?_⟩
      intro hk
      have : x.2.kind ≠ .struct := by rw [(hx' x hx).2] at hk; exact hk
      simp [C, this])
    (by intro q hq; obtain ⟨fr, hfr, rfl⟩ := hmem q hq; exact f2 fr hfr)
  rw [hl1, hl2] at a2 a3
  rw [hl2] at a1 a4
  subst h
  refine ⟨⟨hsch, a1, ?_⟩, ?_⟩
  · intro c
    simp only at c ⊢
    have := hi.empty (append_eq_nil c)
    rw [f1, this]
    rfl
  · unfold Ds.table specAdd
    simp only [Data.mk.injEq, a2, true_and]
    rw [Tr.map_append]
    congr 1
    · apply Tr.map_congr
      intro a ha
      unfold absCol
      rw [a3 a.id (List.mem_map_of_mem ha)]
    · rw [Tr.map_map, Tr.map_map]
      apply Tr.map_congr
      intro x hx
      have h1 := w3 x hx
      have h2 : x.1.nullable = x.2.nullable := by rw [h1]; rfl
      have h3 : x.1.kind = x.2.kind := (hx' x hx).2
      have h4 : x.1.name = x.2.name := (hx' x hx).1
      unfold absCol Attr.col
      rw [h2, h3, h4]
      by_cases hk : x.2.kind = .struct
      · simp [hk]
      · rw [if_neg hk, if_neg hk, a4 x hx (by rw [h3]; exact hk), List.flatMap_map]
        simp only [C, if_neg hk]
        congr 1
        have := rows_concat (cell := fun fr i => x.2.fn (rowAt (p.map (L fr)) i)) d.frags 0
          (fun j => x.2.fn (fun q => if Asked reads q then (colAt q (d.schema.map (absCol d.frags))).map (fun c => c.vals.getD j none) else none)) (by
            intro pre fr post he i hi'
            congr 1
            funext q
            unfold rowAt
            rw [project_cols hi.schema.distinct hi.schema.shape (readFine_has hr) e (fun _ => rfl)]
            split
            · rw [colAt_field (fun _ => rfl), colAt_field (fun _ => rfl), Option.map_map, Option.map_map]
              congr 1
              funext t
              simp only [Function.comp, L, absCol, Attr.col, Nat.zero_add]
              split
              · rfl
              · rw [he, absVals_at _ hi']
            · rfl)
        simp only [Nat.zero_add] at this
        exact this

/-! ### Adding columns of nulls -/

theorem addNulls_ok {d d' : Ds} {new : Tr Attr} (hi : Inv d) (hshape : ShapeOk new) (hdist : Distinct Attr.name new) (h : addNulls d new = some d') :
    Inv d' ∧ d'.table = ⟨d.table.n, d.table.cols.append (new.map (Attr.nulls d.table.n))⟩ := by
  unfold addNulls at h
  split at h
  case isFalse => cases h
  rename_i hc
  simp only [Option.some.injEq] at h
  simp only [Bool.and_eq_true, List.all_eq_true, Bool.not_eq_true', List.any_eq_false] at hc
  obtain ⟨⟨hnew, hnull⟩, hleg⟩ := hc
  have hid : new.map (fun a => a) = new := Tr.map_id' (fun _ _ => rfl)
  obtain ⟨W, w1, w2, w3, w4, w5⟩ := addedSchema_zip (fun a : Attr => a) (D := new) hi (by rw [hid]; exact hnew) (by rw [hid]; exact hdist)
  rw [hid] at w1
  subst w2
  obtain ⟨hsch, hfresh, hdW, hnames⟩ := added_inv hi w3 w4 w5 (by rw [hid]; exact hshape) (by rw [hid]; exact hdist) (by rw [hid]; exact hnew)
  rw [w1] at h
  subst h
  have hWnull : ∀ a ∈ (W.map Prod.fst).flat, a.nullable = true := by
    intro a ha
    rw [Tr.flat_map] at ha
    obtain ⟨x, hx, rfl⟩ := List.mem_map.1 ha
    have h1 := w3 x hx
    rw [h1]
    refine hnull x.2 ?_
    rw [Tr.flat_map]
    exact List.mem_map_of_mem hx
  refine ⟨⟨hsch, ?_, ?_⟩, ?_⟩
  · intro fr hfr
    simp only at hfr ⊢
    have hf := hi.frags fr hfr
    have hlg : d.legacy = false := by
      cases hl : d.legacy with
      | false => rfl
      | true =>
        exfalso
        cases hsch' : d.schema with
        | nil => rw [hi.empty hsch'] at hfr; cases hfr
        | cons a k r =>
          rcases hf.whole (a, k) (by rw [hsch']; simp [Tr.roots]) with ⟨f, hm, _⟩ | ⟨_, _, h3⟩
          · have h4 := hleg fr hfr
            simp only [Bool.not_eq_true, List.any_eq_false] at h4
            have h5 := h4 f hm
            rw [hf.format f hm, hl] at h5
            exact Bool.noConfusion h5
          · rw [hl] at h3
            cases h3
    refine ⟨hf.nodup, hf.rows, hf.format, ?_, ?_, ?_, hf.del⟩
    · intro t ht
      rw [Tr.roots_append, List.mem_append] at ht
      rcases ht with ht | ht
      · exact hf.whole t ht
      · refine Or.inr ⟨?_, ?_, hlg⟩
        · intro f hm i hii c
          exact (hfresh i (mem_ids_root.2 ⟨t, ht, hii⟩)).2 fr hfr (List.mem_flatMap.2 ⟨f, hm, c⟩)
        · intro a ha
          apply hWnull
          rcases List.mem_cons.1 ha with rfl | ha
          · exact Tr.root_mem_flat ht
          · split at ha
            · exact Tr.kid_mem_flat ht (strict_flat ha)
            · cases ha
    · intro a ha hk v hv
      rw [Tr.flat_append, List.mem_append] at ha
      rcases ha with ha | ha
      · exact hf.len a ha hk v hv
      · rw [lookup_none ((hfresh a.id (List.mem_map_of_mem ha)).2 fr hfr)] at hv
        cases hv
    · intro a ha hk v hv
      rw [strict_append, List.mem_append] at ha
      rcases ha with ha | ha
      · exact hf.nonnull a ha hk v hv
      · rw [lookup_none ((hfresh a.id (strict_ids ha)).2 fr hfr)] at hv
        cases hv
  · intro c
    exact hi.empty (append_eq_nil c)
  · unfold Ds.table
    simp only [Data.mk.injEq, true_and]
    rw [Tr.map_append]
    congr 1
    rw [Tr.map_map, Tr.map_map]
    apply Tr.map_congr
    intro x hx
    have h1 := w3 x hx
    have h2 : x.1.nullable = x.2.nullable := by rw [h1]
    have h3 : x.1.kind = x.2.kind := by rw [h1]
    have h4 : x.1.name = x.2.name := by rw [h1]
    unfold absCol Attr.col Attr.nulls
    rw [h2, h3, h4]
    congr 2
    rw [List.eq_replicate_iff]
    refine ⟨absVals_length _ _, ?_⟩
    intro b hb
    unfold absVals at hb
    obtain ⟨fr, hfr, hb⟩ := List.mem_flatMap.1 hb
    have h5 : x.1.id ∈ ids (W.map Prod.fst) := List.mem_map_of_mem (mem_fst' hx)
    unfold Frag.colVals at hb
    rw [lookup_none ((hfresh _ h5).2 fr hfr), Option.getD_none, pickVals_replicate] at hb
    exact (List.mem_replicate.1 hb).2

/-! ### Adding columns from a stream -/

theorem pull_ok : ∀ {bs : List (List Nat)} {n : Nat} {rows : List Nat} {rest : List (List Nat)}, pull n bs = some (rows, rest) →
    rows.length = n ∧ bs.flatten = rows ++ rest.flatten
  | [], 0, rows, rest, h => by
    simp only [pull, Option.some.injEq, Prod.mk.injEq] at h
    obtain ⟨rfl, rfl⟩ := h
    exact ⟨rfl, rfl⟩
  | b :: bs, 0, rows, rest, h => by
    simp only [pull, Option.some.injEq, Prod.mk.injEq] at h
    obtain ⟨rfl, rfl⟩ := h
    exact ⟨rfl, rfl⟩
  | [], n + 1, rows, rest, h => by simp [pull] at h
  | b :: bs, n + 1, rows, rest, h => by
    simp only [pull] at h
    split at h
    · rename_i hc
      simp only [Option.some.injEq, Prod.mk.injEq] at h
      obtain ⟨rfl, rfl⟩ := h
      refine ⟨by simp; omega, ?_⟩
      rw [List.flatten_cons, List.flatten_cons, ← List.append_assoc, List.take_append_drop]
    · rename_i hc
      cases e : pull (n + 1 - b.length) bs with
      | none => rw [e] at h; cases h
      | some r =>
        rw [e] at h
        simp only [Option.map_some, Option.some.injEq, Prod.mk.injEq] at h
        obtain ⟨rfl, rfl⟩ := h
        obtain ⟨h1, h2⟩ := pull_ok e
        refine ⟨by simp [h1]; omega, ?_⟩
        rw [List.flatten_cons, h2, List.append_assoc]

theorem streamFrags_ok {lg : Bool} {s : Tr Attr} {W : Tr (Attr × Col)} {b : Data} (hb : b.cols = W.map Prod.snd)
    (hx : ∀ x ∈ W.flat, x.1.name = x.2.name ∧ x.1.kind = x.2.kind) (hdW : Distinct Attr.name (W.map Prod.fst)) :
    ∀ {frags : List Frag} {bs : List (List Nat)} {frags' : List Frag} {rest : List (List Nat)}, (∀ fr ∈ frags, FragOk lg s fr) →
    streamFrags lg s (W.map Prod.fst) b frags bs = some (frags', rest) →
    ∃ l : List (Frag × List Nat), frags = l.map Prod.fst ∧ frags' = l.map (fun p => withFile lg W (p.1, pickC p.2)) ∧
      bs.flatten = l.flatMap Prod.snd ++ rest.flatten ∧ ∀ p ∈ l, p.2.length = (alive p.1.phys p.1.del).length ∧
        verifyNulls (W.map Prod.fst) (pickCols (blanks p.1.phys p.1.del) ((W.map Prod.snd).map (pickC p.2))) = true
  | [], bs, frags', rest, _, h => by
    simp only [streamFrags, Option.some.injEq, Prod.mk.injEq] at h
    obtain ⟨rfl, rfl⟩ := h
    exact ⟨[], rfl, rfl, rfl, by simp⟩
  | fr :: frags, bs, frags', rest, hf, h => by
    unfold streamFrags at h
    cases e : pull (alive fr.phys fr.del).length bs with
    | none => rw [e] at h; cases h
    | some r =>
      obtain ⟨rows, bs'⟩ := r
      rw [e] at h
      simp only at h
      obtain ⟨p1, p2⟩ := pull_ok e
      cases e2 : updateFrag lg s .nil (W.map Prod.fst) (fun _ => some (b.pick rows)) fr with
      | none => rw [e2] at h; cases h
      | some fr' =>
        rw [e2] at h
        simp only at h
        cases e3 : streamFrags lg s (W.map Prod.fst) b frags bs' with
        | none => rw [e3] at h; cases h
        | some r =>
          rw [e3] at h
          simp only [Option.map_some, Option.some.injEq, Prod.mk.injEq] at h
          obtain ⟨rfl, rfl⟩ := h
          obtain ⟨l, l1, l2, l3, l4⟩ := streamFrags_ok hb hx hdW (fun g hg => hf g (by simp [hg])) (show streamFrags lg s (W.map Prod.fst) b frags bs' = some (r.1, r.2) from e3)
          have hfst : (W.map (fun x => (x.1, pickC rows x.2))).map Prod.fst = W.map Prod.fst := by rw [Tr.map_map]
          have hsnd : (W.map (fun x => (x.1, pickC rows x.2))).map Prod.snd = (W.map Prod.snd).map (pickC rows) := by rw [Tr.map_map, Tr.map_map]
          have hcols : (b.pick rows).cols = (W.map Prod.snd).map (pickC rows) := by
            unfold Data.pick pickCols
            simp only
            rw [hb]
            rfl
          rw [← hfst] at e2
          obtain ⟨_, _, g3, g4⟩ := updateFrag_zip (reads := .nil) (hf fr (by simp)) (rb := ⟨(alive fr.phys fr.del).length, .nil⟩) rfl rfl
            (nb := b.pick rows) rfl (by
              intro z hz
              rw [hcols, ← hsnd]
              refine colByName_zip ?_ ?_ hz
              · intro y hy
                rw [Tr.roots_map] at hy
                obtain ⟨u, hu, rfl⟩ := List.mem_map.1 hy
                exact (hx u.1 (Tr.root_mem_flat hu)).1
              · have := distinct_names hdW
                rw [← hfst, Tr.roots_map, List.map_map] at this
                exact this) e2
          refine ⟨(fr, rows) :: l, by rw [List.map_cons, ← l1], ?_, ?_, ?_⟩
          · rw [List.map_cons, ← l2, g3]
            rfl
          · rw [p2, l3]
            simp
          · intro p hp
            rcases List.mem_cons.1 hp with rfl | hp
            · refine ⟨p1, ?_⟩
              rw [hfst, hcols] at g4
              exact g4
            · exact l4 p hp

theorem addStream_ok {d d' : Ds} {b : Data} {sizes : List Nat} (hi : Inv d) (hb : DataOk b) (hd : Distinct Col.name b.cols)
    (h : addStream d b sizes = some d') : Inv d' ∧ d'.table = ⟨d.table.n, d.table.cols.append b.cols⟩ := by
  unfold addStream at h
  simp only at h
  split at h
  case isFalse => cases h
  rename_i hnew
  have hdist := distinct_attr hd
  have hshape := colsOk_shape hb.1
  have hflat := colsOk_flat hb.1
  obtain ⟨W, w1, w2, w3, w4, w5⟩ := addedSchema_zip Col.attr hi hnew hdist
  rw [w2] at hdist hshape hnew
  obtain ⟨hsch, hfresh, hdW, hnames⟩ := added_inv hi w3 w4 w5 hshape hdist hnew
  have hx : ∀ x ∈ W.flat, x.1.name = (Col.attr x.2).name ∧ x.1.kind = (Col.attr x.2).kind := by
    intro x hm
    have := w3 x hm
    constructor
    · rw [this]
    · rw [this]
  rw [w1] at h
  conv at h => lhs; rw [w2]
  rw [pbs_self Col.attr hx hdW (fun u hu => by rw [byName_append_new hnames hu]; exact byName_of_mem (distinct_names hdW) hu)] at h
  simp only at h
  cases e : streamFrags d.legacy d.schema (W.map Prod.fst) b d.frags (cut sizes 0 b.n) with
  | none => rw [e] at h; cases h
  | some r =>
    obtain ⟨frags, rest⟩ := r
    rw [e] at h
    cases rest with
    | cons x y => cases h
    | nil =>
    simp only [Option.some.injEq] at h
    obtain ⟨l, l1, l2, l3, l4⟩ := streamFrags_ok w2 (fun x hm => hx x hm) hdW hi.frags e
    rw [cut_flatten, ← List.range_eq_range'] at l3
    simp only [List.flatten_nil, List.append_nil] at l3
    have hsnd : ∀ x ∈ W.flat, x.2 ∈ b.cols.flat := by
      intro x hx
      rw [w2, Tr.flat_map]
      exact List.mem_map_of_mem hx
    have hl1 : (l.map (fun p => (p.1, pickC p.2))).map Prod.fst = d.frags := by
      rw [List.map_map, l1]
      rfl
    have hl2 : (l.map (fun p => (p.1, pickC p.2))).map (withFile d.legacy W) = frags := by
      rw [List.map_map, l2]
      rfl
    have hmem : ∀ q ∈ l.map (fun p => (p.1, pickC p.2)), ∃ p ∈ l, q = (p.1, pickC p.2) := by
      intro q hq
      obtain ⟨p, hp, rfl⟩ := List.mem_map.1 hq
      exact ⟨p, hp, rfl⟩
    have hlm : ∀ p ∈ l, p.1 ∈ d.frags := by
      intro p hp
      rw [l1]
      exact List.mem_map_of_mem hp
    obtain ⟨a1, a2, a3, a4⟩ := added_ok (lg := d.legacy) (s := d.schema) (W := W) (l := l.map (fun p => (p.1, pickC p.2)))
      (by intro q hq; obtain ⟨p, hp, rfl⟩ := hmem q hq; exact hi.frags _ (hlm p hp)) w5
      (fun i hii => ⟨(hfresh i hii).1, by intro q hq; obtain ⟨p, hp, rfl⟩ := hmem q hq; exact (hfresh i hii).2 _ (hlm p hp)⟩)
      (by
        intro q hq x hx'
        obtain ⟨p, hp, rfl⟩ := hmem q hq
        refine ⟨(hx x hx').2.symm, ?_⟩
        intro hk
        have : x.2.kind ≠ .struct := by rw [(hx x hx').2] at hk; exact hk
        simp [pickC, this, pickVals, (l4 p hp).1])
      (by intro q hq; obtain ⟨p, hp, rfl⟩ := hmem q hq; exact (l4 p hp).2)
    rw [hl1, hl2] at a2 a3
    rw [hl2] at a1 a4
    subst h
    refine ⟨⟨hsch, a1, ?_⟩, ?_⟩
    · intro c
      simp only at c ⊢
      have h1 := hi.empty (append_eq_nil c)
      rw [h1] at l1
      have := l1.symm
      rw [List.map_eq_nil_iff] at this
      rw [l2, this]
      rfl
    · unfold Ds.table
      simp only [Data.mk.injEq, a2, true_and]
      rw [Tr.map_append]
      congr 1
      · apply Tr.map_congr
        intro a ha
        unfold absCol
        rw [a3 a.id (List.mem_map_of_mem ha)]
      · rw [w2, Tr.map_map]
        apply Tr.map_congr
        intro x hm
        have h1 := w3 x hm
        have h2 : x.1.nullable = x.2.nullable := by rw [h1]; rfl
        have h3 : x.1.kind = x.2.kind := (hx x hm).2
        have h4 : x.1.name = x.2.name := (hx x hm).1
        have hv := hflat _ (hsnd x hm)
        unfold absCol Attr.col
        rw [h2, h3, h4]
        by_cases hk : x.2.kind = .struct
        · rw [if_pos hk, ← hv.1 hk]
        · rw [if_neg hk, a4 x hm (by rw [h3]; exact hk), List.flatMap_map]
          simp only [pickC, if_neg hk]
          have h5 : l.flatMap (fun p => pickVals p.2 x.2.vals) = pickVals (l.flatMap Prod.snd) x.2.vals := by
            clear l1 l2 l3 l4 hl1 hl2 hmem hlm a1 a2 a3 a4 e
            induction l with
            | nil => rfl
            | cons p l ih => rw [List.flatMap_cons, List.flatMap_cons, ih]; simp [pickVals]
          rw [h5, ← l3, pickVals_range (hv.2 hk)]

end Verif.Evolve
