import Verif.File.LemmasWrite

/-! What the reader makes of a closed file. -/
namespace Verif.File

variable {A S C M T : Type}

/-- `read_all_metadata` of a file that is in memory. -/
def readWhole (cd : Codec (T × Nat)) (cm : Codec (ColMeta A S C)) (file : Bytes) : Except Fail (Meta T A S C) :=
  match decodeFooter file with
  | .error e => .error e
  | .ok f =>
  match verOf f.major f.minor with
  | .error e => .error e
  | .ok v =>
  if file.length < f.gbo then .error .panic else
  match gboTable v f.ng (file.drop f.gbo) with
  | .error e => .error e
  | .ok [] => .error .err
  | .ok ((start, size) :: gs) =>
  if file.length < start then .error .panic else
  match slice (file.drop start) 0 size with
  | .error e => .error e
  | .ok sb =>
  match cd.dec sb with
  | none => .error .err
  | some (sch, rows) =>
  if f.cms < start ∨ f.gbo < start then .error .panic else
  match slice (file.drop start) (f.cms - start) (f.gbo - start) with
  | .error e => .error e
  | .ok mb =>
  match colMetas cm mb f with
  | .error e => .error e
  | .ok metas =>
  if f.cms < size + (gs.map (·.2)).sum ∨ f.gbo < f.cms then .error .panic else
  match colInfos v 0 metas with
  | .error e => .error e
  | .ok infos => .ok ⟨sch, rows, metas, infos, f.cms - (size + (gs.map (·.2)).sum), f.gbo - f.cms,
      size + (gs.map (·.2)).sum, file.length - start, (start, size) :: gs, f.major, f.minor⟩

theorem ok_bind' {α β : Type} (a : α) (f : α → Except Fail β) : ((Except.ok a : Except Fail α) >>= f) = f a := rfl

theorem error_bind' {α β : Type} (e : Fail) (f : α → Except Fail β) :
    ((Except.error e : Except Fail α) >>= f) = .error e := rfl

theorem readAll_eq (cd : Codec (T × Nat)) (cm : Codec (ColMeta A S C)) (block : Nat) (hb : 40 ≤ block) (file : Bytes) :
    readAll cd cm block file = readWhole cd cm file := by
  obtain ⟨k, h1, h2, h3⟩ := readTail_ok block file
  unfold readAll readWhole
  rw [h1, ok_bind']
  by_cases h40 : 40 ≤ file.length
  · have hk := h2 hb h40
    rw [decodeFooter_drop file k hk]
    cases hf : decodeFooter file with
    | error e => rfl
    | ok f =>
      rw [ok_bind']
      simp only
      cases hv : verOf f.major f.minor with
      | error e => rfl
      | ok v =>
        rw [ok_bind', tailRead_drop file k (by omega)]
        simp only
        by_cases hg : f.gbo ≤ file.length
        · rw [if_pos hg, if_neg (by omega : ¬ file.length < f.gbo), ok_bind']
          cases ht : gboTable v f.ng (file.drop f.gbo) with
          | error e => rfl
          | ok gs =>
            rw [ok_bind']
            cases gs with
            | nil => rfl
            | cons g gs =>
              obtain ⟨start, size⟩ := g
              simp only
              by_cases hs : file.length < start
              · rw [if_pos hs, if_pos hs]
              · rw [if_neg hs, if_neg hs, tailRead_drop file k (by omega), if_pos (by omega), ok_bind']
                cases h4 : slice (file.drop start) 0 size with
                | error e => rfl
                | ok sb =>
                  rw [ok_bind']
                  simp only
                  cases h5 : cd.dec sb with
                  | none => rfl
                  | some d =>
                    obtain ⟨sch, rows⟩ := d
                    simp only
                    by_cases h6 : f.cms < start ∨ f.gbo < start
                    · rw [if_pos h6, if_pos h6]
                    · rw [if_neg h6, if_neg h6]
                      cases h7 : slice (file.drop start) (f.cms - start) (f.gbo - start) with
                      | error e => rfl
                      | ok mb =>
                        rw [ok_bind']
                        simp only
                        cases h8 : colMetas cm mb f with
                        | error e => rfl
                        | ok metas =>
                          rw [ok_bind']
                          simp only [List.map_cons, List.sum_cons]
                          split
                          · rfl
                          · cases colInfos v 0 metas <;> rfl
        · rw [if_neg hg, if_pos (by omega)]
          rfl
  · have : decodeFooter (file.drop k) = .error .err := by unfold decodeFooter; rw [if_pos (h3 (by omega))]
    have h' : decodeFooter file = .error .err := by unfold decodeFooter; rw [if_pos (by omega)]
    rw [this, h']
    rfl

/-! ### Column metadata -/

theorem layMetas_spec (cm : Codec M) (pos : Nat) (ms : List M) :
    (layMetas cm pos ms).1.length = ms.length ∧
    (∀ e ∈ (layMetas cm pos ms).1, pos ≤ e.1 ∧ e.1 + e.2 ≤ pos + (layMetas cm pos ms).2.length) ∧
    ∀ (i : Nat) (m : M), ms[i]? = some m → ∃ e, (layMetas cm pos ms).1[i]? = some e ∧
      ((layMetas cm pos ms).2.drop (e.1 - pos)).take e.2 = cm.enc m := by
  induction ms generalizing pos with
  | nil => exact ⟨rfl, fun e he => (nomatch he), fun i m h => by simp at h⟩
  | cons m ms ih =>
    obtain ⟨h1, h2, h3⟩ := ih (pos + (cm.enc m).length)
    simp only [layMetas]
    refine ⟨by simp [h1], ?_, ?_⟩
    · intro e he
      rw [List.length_append]
      rcases List.mem_cons.mp he with rfl | he'
      · simp only; omega
      · have := h2 e he'
        omega
    · intro i m' hm
      cases i with
      | zero =>
        simp at hm
        subst hm
        refine ⟨_, rfl, ?_⟩
        simp
      | succ i =>
        rw [List.getElem?_cons_succ] at hm
        obtain ⟨e, he1, he2⟩ := h3 i m' hm
        refine ⟨e, by rw [List.getElem?_cons_succ]; exact he1, ?_⟩
        have hle := (h2 e (List.mem_of_getElem? he1)).1
        rw [← he2, show e.1 - pos = (cm.enc m).length + (e.1 - (pos + (cm.enc m).length)) by omega, ← List.drop_drop,
          List.drop_left]

theorem mapM_range {α : Type} (f : Nat → Except Fail α) (l : List α) : ∀ s, (∀ i a, l[i]? = some a → f (s + i) = .ok a) →
    (List.range' s l.length).mapM f = .ok l := by
  induction l with
  | nil => intro s _; rfl
  | cons a l ih =>
    intro s h
    have h0 : f s = .ok a := h 0 a rfl
    rw [List.length_cons, List.range'_succ, List.mapM_cons, h0,
      ih (s + 1) (fun i b hb => by
        have := h (i + 1) b (by simpa using hb)
        rw [← this]
        congr 1
        omega)]
    rfl

theorem colMetas_spec (cm : Codec M) (hcm : ∀ m, cm.dec (cm.enc m) = some m) (ms : List M) (pos : Nat) (f : Footer)
    (hn : f.nc = ms.length) (hp : f.cms = pos) (hmax : ms.length ≤ 2 ^ 28)
    (hb : pos + (layMetas cm pos ms).2.length < 2 ^ 64) :
    colMetas cm ((layMetas cm pos ms).2 ++ table (layMetas cm pos ms).1) f = .ok ms := by
  obtain ⟨h1, h2, h3⟩ := layMetas_spec cm pos ms
  have hlen : (table (layMetas cm pos ms).1).length = 16 * ms.length := by rw [table_length, h1]
  unfold colMetas
  rw [if_pos (by rw [List.length_append, hlen, hn]; omega)]
  have hdrop : ((layMetas cm pos ms).2 ++ table (layMetas cm pos ms).1).drop
      (((layMetas cm pos ms).2 ++ table (layMetas cm pos ms).1).length - 16 * f.nc) = table (layMetas cm pos ms).1 := by
    rw [List.length_append, hlen, hn, Nat.add_sub_cancel, List.drop_left]
  simp only [hdrop]
  rw [hn, List.range_eq_range']
  refine mapM_range _ ms 0 ?_
  intro i m hm
  obtain ⟨e, he1, he2⟩ := h3 i m hm
  have hi : i < ms.length := (List.getElem?_eq_some_iff.mp hm).1
  have hlt : ∀ x ∈ (layMetas cm pos ms).1, x.1 < 2 ^ 64 ∧ x.2 < 2 ^ 64 := by
    intro x hx
    have := h2 x hx
    omega
  obtain ⟨k1, k2⟩ := intAt_table _ hlt i e he1
  have hr := h2 e (List.mem_of_getElem? he1)
  rw [Nat.zero_add, if_neg (by omega), k1, k2, hp, if_neg (by omega)]
  unfold slice
  rw [if_pos ⟨by omega, by rw [List.length_append]; omega⟩]
  simp only
  rw [show e.1 - pos + e.2 - (e.1 - pos) = e.2 by omega, List.drop_append_of_le_length (by omega),
    List.take_append_of_le_length (by rw [List.length_drop]; omega), he2, hcm m]

/-! ### Pages and columns -/

/-- The description of a page is of the kind that the version has. -/
def Kind (v : Ver) (e : PageEnc A S) : Prop :=
  match v, e with
  | .v20, .legacy _ => True
  | .v21, .structural _ => True
  | _, _ => False

theorem pageInfo_ok (v : Ver) (p : Page A S) (hk : Kind v p.enc) (ha : v = .v21 → ∀ o ∈ p.offsets, o % 64 = 0) :
    pageInfo v p = .ok ⟨p.offsets.zip p.sizes, p.enc, p.length, p.priority⟩ := by
  obtain ⟨os, ss, e, l, pr⟩ := p
  have hany : ¬ (v = .v21 ∧ (os.zip ss).any (fun b => b.1 % 64 != 0) = true) := by
    rintro ⟨hv, hx⟩
    rw [List.any_eq_true] at hx
    obtain ⟨b, hb, hne⟩ := hx
    have := ha hv b.1 (List.of_mem_zip (a := b.1) (b := b.2) hb).1
    simp [this] at hne
  unfold pageInfo
  cases v with
  | legacy => cases e <;> exact hk.elim
  | v20 =>
    cases e with
    | legacy a => simp
    | structural s => exact hk.elim
  | v21 =>
    cases e with
    | legacy a => exact hk.elim
    | structural s =>
      exact if_neg hany

theorem mapM_ok {α β : Type} (f : α → Except Fail β) (g : α → β) (l : List α) (h : ∀ a ∈ l, f a = .ok (g a)) :
    l.mapM f = .ok (l.map g) := by
  induction l with
  | nil => rfl
  | cons a l ih =>
    rw [List.mapM_cons, h a List.mem_cons_self, ih (fun x hx => h x (List.mem_cons_of_mem _ hx))]
    rfl

/-- What the reader keeps of a page. -/
def Page.info (p : Page A S) : PageInfo A S := ⟨p.offsets.zip p.sizes, p.enc, p.length, p.priority⟩

theorem colInfo_ok (v : Ver) (i : Nat) (c : ColMeta A S C) (e : C) (he : c.enc = some e)
    (hk : ∀ p ∈ c.pages, Kind v p.enc) (ha : v = .v21 → ∀ p ∈ c.pages, ∀ o ∈ p.offsets, o % 64 = 0) :
    colInfo v i c = .ok ⟨i, c.pages.map Page.info, c.offsets.zip c.sizes, e⟩ := by
  unfold colInfo
  rw [mapM_ok (pageInfo v) Page.info c.pages (fun p hp => pageInfo_ok v p (hk p hp) (fun hv => ha hv p hp)), he]

theorem colInfos_ok (v : Ver) (cs : List (ColMeta A S C)) : ∀ (s : Nat) (es : List C), cs.map (·.enc) = es.map some →
    (∀ c ∈ cs, ∀ p ∈ c.pages, Kind v p.enc) →
    (v = .v21 → ∀ c ∈ cs, ∀ p ∈ c.pages, ∀ o ∈ p.offsets, o % 64 = 0) →
    ∃ infos, colInfos v s cs = .ok infos ∧ infos.length = cs.length ∧
      ∀ (i : Nat) (c : ColMeta A S C) (e : C), cs[i]? = some c → es[i]? = some e →
        infos[i]? = some ⟨s + i, c.pages.map Page.info, c.offsets.zip c.sizes, e⟩ := by
  induction cs with
  | nil => intro s es _ _ _; exact ⟨[], rfl, rfl, fun i c e h => by simp at h⟩
  | cons c cs ih =>
    intro s es he hk ha
    cases es with
    | nil => simp at he
    | cons e es =>
      simp only [List.map_cons, List.cons.injEq] at he
      obtain ⟨infos, h1, h2, h3⟩ := ih (s + 1) es he.2 (fun x hx => hk x (List.mem_cons_of_mem _ hx))
        (fun hv x hx => ha hv x (List.mem_cons_of_mem _ hx))
      refine ⟨⟨s, c.pages.map Page.info, c.offsets.zip c.sizes, e⟩ :: infos, ?_, by rw [List.length_cons, List.length_cons, h2], ?_⟩
      · rw [colInfos, colInfo_ok v s c e he.1 (hk c List.mem_cons_self) (fun hv => ha hv c List.mem_cons_self), h1]
        rfl
      · intro i c' e' hc' he'
        cases i with
        | zero =>
          simp at hc' he'
          subst hc'
          subst he'
          rfl
        | succ i =>
          rw [List.getElem?_cons_succ] at hc' he' ⊢
          rw [h3 i c' e' hc' he']
          congr 2
          omega

/-! ### A closed file -/

theorem close_read (cd : Codec (T × Nat)) (cm : Codec (ColMeta A S C)) (hcd : ∀ d, cd.dec (cd.enc d) = some d)
    (hcm : ∀ m, cm.dec (cm.enc m) = some m) (v : Ver) (nv : Nat × Nat) (hv : v.numbers = some nv) (d : T × Nat)
    (w : Wr A S C) (es : List C) (hes : w.cols.map (·.enc) = es.map some)
    (hlen : (close cd cm d nv w).length < 2 ^ 64) (hcols : w.cols.length ≤ 2 ^ 28) (hglob : w.globals.length + 1 < 2 ^ 32)
    (hg : ∀ e ∈ w.globals, e.1 + e.2 ≤ w.out.length) (hsum : (w.globals.map (·.2)).sum ≤ w.out.length)
    (hk : ∀ c ∈ w.cols, ∀ p ∈ c.pages, Kind v p.enc) (hal : v = .v21 → Al w) :
    ∃ m, readWhole cd cm (close cd cm d nv w) = .ok m ∧ (m.schema, m.rows) = d ∧ m.metas = w.cols ∧
      m.infos.length = w.cols.length ∧
      (∀ (i : Nat) (c : ColMeta A S C) (e : C), w.cols[i]? = some c → es[i]? = some e →
        m.infos[i]? = some ⟨i, c.pages.map Page.info, c.offsets.zip c.sizes, e⟩) ∧
      m.bufs = (w.out.length, (cd.enc d).length) :: w.globals ∧ (m.major, m.minor) = nv ∧
      bufAt (close cd cm d nv w) (w.out.length, (cd.enc d).length) = .ok (cd.enc d) ∧
      m.globalBytes = (m.bufs.map (·.2)).sum ∧ m.footerBytes + w.out.length = (close cd cm d nv w).length ∧
      m.dataBytes + m.globalBytes + m.metaBytes + 16 * m.bufs.length + 40 = (close cd cm d nv w).length := by
  obtain ⟨h1, h2, h3⟩ := layMetas_spec cm (w.out ++ cd.enc d).length w.cols
  -- the parts of the file
  let gbos := (w.out.length, (cd.enc d).length) :: w.globals
  let mm := layMetas cm (w.out ++ cd.enc d).length w.cols
  let cms := (w.out ++ cd.enc d).length
  let cmo := cms + mm.2.length
  let gbo := cmo + (table mm.1).length
  have hfile : close cd cm d nv w = w.out ++ cd.enc d ++ mm.2 ++ table mm.1 ++ table gbos ++
      footer cms cmo gbo gbos.length w.cols.length nv.1 nv.2 := by
    unfold close
    simp only [mm, gbos, cms, cmo, gbo, List.length_append, List.append_assoc, Nat.add_assoc]
  have hl : (close cd cm d nv w).length = gbo + 16 * gbos.length + 40 := by
    rw [hfile]
    simp only [List.length_append, footer_length, table_length gbos, cms, cmo, gbo]
  have hvn : nv.1 < 2 ^ 16 ∧ nv.2 < 2 ^ 16 ∧ ¬ (nv.1 = 0 ∧ nv.2 = 2) ∧ verOf nv.1 nv.2 = .ok v := by
    cases v with
    | legacy => cases hv
    | v20 => cases hv; exact ⟨by decide, by decide, by decide, rfl⟩
    | v21 => cases hv; exact ⟨by decide, by decide, by decide, rfl⟩
  have hcl : (table mm.1).length = 16 * w.cols.length := by rw [table_length, h1]
  have hcmo : cmo = cms + mm.2.length := rfl
  have hgbo : gbo = cmo + (table mm.1).length := rfl
  have hcms : cms = w.out.length + (cd.enc d).length := List.length_append
  have hgl : gbos.length = w.globals.length + 1 := rfl
  have hfoot : decodeFooter (close cd cm d nv w) = .ok ⟨cms, cmo, gbo, gbos.length, w.cols.length, nv.1, nv.2⟩ := by
    rw [hfile]
    refine decodeFooter_footer _ _ _ _ _ _ _ _ ?_ ?_ ?_ ?_ ?_ hvn.1 hvn.2.1 hvn.2.2.1 <;> omega
  have hd1 : (close cd cm d nv w).drop gbo =
      table gbos ++ footer cms cmo gbo gbos.length w.cols.length nv.1 nv.2 := by
    rw [hfile, List.append_assoc _ (table gbos)]
    refine List.drop_left' ?_
    simp only [List.length_append, cms, cmo, gbo]
  have hd2 : (close cd cm d nv w).drop w.out.length = cd.enc d ++ (mm.2 ++ table mm.1) ++ (table gbos ++
      footer cms cmo gbo gbos.length w.cols.length nv.1 nv.2) := by
    rw [hfile]
    simp only [List.append_assoc]
    exact List.drop_left
  have htab : gboTable v gbos.length ((close cd cm d nv w).drop gbo) = .ok gbos := by
    rw [hd1]
    refine gboTable_table v gbos _ ?_ ?_
    · intro e he
      rcases List.mem_cons.mp he with rfl | he'
      · simp only; omega
      · have := hg e he'
        omega
    · intro hv21 e he
      rcases List.mem_cons.mp he with rfl | he'
      · exact (hal hv21).out
      · exact (hal hv21).globals e he'
  have hs1 : slice ((close cd cm d nv w).drop w.out.length) 0 (cd.enc d).length = .ok (cd.enc d) := by
    unfold slice
    rw [if_pos ⟨Nat.zero_le _, by rw [hd2]; simp only [List.length_append]; omega⟩, hd2]
    simp
  have hs2 : slice ((close cd cm d nv w).drop w.out.length) (cms - w.out.length) (gbo - w.out.length) =
      .ok (mm.2 ++ table mm.1) := by
    unfold slice
    rw [if_pos ⟨by omega, by rw [List.length_drop, hl]; omega⟩, hd2, List.append_assoc,
      List.drop_left' (by omega), List.take_left' (by rw [List.length_append]; omega)]
  have hm := colMetas_spec cm hcm w.cols cms ⟨cms, cmo, gbo, gbos.length, w.cols.length, nv.1, nv.2⟩ rfl rfl hcols (by
    show cms + mm.2.length < 2 ^ 64
    omega)
  obtain ⟨infos, i1, i2, i3⟩ := colInfos_ok v w.cols 0 es hes hk (fun hv21 c hc p hp => (hal hv21).pages c hc p hp)
  have hread : readWhole cd cm (close cd cm d nv w) = .ok ⟨d.1, d.2, w.cols, infos,
      cms - ((cd.enc d).length + (w.globals.map (·.2)).sum), gbo - cms, (cd.enc d).length + (w.globals.map (·.2)).sum,
      (close cd cm d nv w).length - w.out.length, gbos, nv.1, nv.2⟩ := by
    unfold readWhole
    rw [hfoot]
    simp only [hvn.2.2.2]
    rw [if_neg (by rw [hl]; omega), htab]
    simp only [gbos]
    rw [if_neg (by rw [hl]; omega), hs1]
    simp only [hcd]
    rw [if_neg (by omega), hs2]
    simp only
    rw [hm]
    simp only
    rw [if_neg (by omega), i1]
  refine ⟨_, hread, rfl, rfl, i2, ?_, rfl, rfl, ?_, ?_, ?_, ?_⟩
  · intro i c e hc he
    rw [i3 i c e hc he, Nat.zero_add]
  · have := bufAt_here w.out (cd.enc d) (mm.2 ++ table mm.1 ++ table gbos ++
      footer cms cmo gbo gbos.length w.cols.length nv.1 nv.2)
    rw [hfile]
    simpa [List.append_assoc] using this
  · simp only [gbos, List.map_cons, List.sum_cons]
  · simp only
    rw [hl]
    omega
  · simp only
    rw [hl]
    omega

end Verif.File
