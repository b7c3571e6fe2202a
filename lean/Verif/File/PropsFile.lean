import Verif.File.LemmasFile

/-!
# C94: files open with what was written

The theorems speak about whole runs: calls of `write_batch` and `add_global_buffer` in any order on a new writer, then
`finish`, then `FileReader::try_open`'s `read_all_metadata`.  `bufAt file (pos, len)` is the range of the file that a reader
fetches for a buffer.
-/
namespace Verif.File

variable {A S C T : Type}

/-- What the reader knows about a page, with the bytes of its buffers. -/
def PageInfo.show (file : Bytes) (p : PageInfo A S) : PageEnc A S × Nat × Nat × List (Except Fail Bytes) :=
  (p.enc, p.rows, p.priority, p.bufs.map (bufAt file))

/-- The same of a page that an encoder made. -/
def EncPage.show (p : EncPage A S) : PageEnc A S × Nat × Nat × List (Except Fail Bytes) :=
  (p.desc, p.rows, p.row, p.data.map .ok)

/-- A finished file opens, whatever the size of the blocks that are read, and shows the schema, the number of rows, all
pages of all columns with their buffers, the encodings of the columns and all global buffers as they were written.
Partial: see `C94_column_buffers_violated` for the buffers of columns, and `C94_external_violated` for `Good.aligned`. -/
theorem C94_open_partial (cd : Codec (T × Nat)) (cm : Codec (ColMeta A S C)) (hcd : ∀ d, cd.dec (cd.enc d) = some d)
    (hcm : ∀ m, cm.dec (cm.enc m) = some m) (v : Ver) (sch : T) (n : Nat) (os : List (Op A S)) (f : Fin A S C)
    (w : Wr A S C) (file : Bytes) (hw : runOps os (Wr.new n) = some w) (hf : finish cd cm v sch f w = some file)
    (hg : Good v n os f file) (block : Nat) (hb : 40 ≤ block) :
    ∃ m, readAll cd cm block file = .ok m ∧
      m.schema = sch ∧ m.rows = (os.map Op.rows).sum ∧ some (m.major, m.minor) = v.numbers ∧
      m.infos.map (·.index) = List.range n ∧
      m.infos.map (fun c => c.pages.map (PageInfo.show file)) =
        (List.range n).map (fun i => ((written os f).filter (fun p => p.col == i)).map EncPage.show) ∧
      m.infos.map (·.enc) = f.cols.map (·.enc) ∧
      (m.bufs.drop 1).map (bufAt file) = (os.flatMap Op.globals).map .ok ∧
      (m.bufs.take 1).map (bufAt file) = [.ok (cd.enc (sch, m.rows))] ∧
      ((∀ c ∈ f.cols, ∀ b ∈ c.buffers.dropLast, b.length % 64 = 0) →
        m.infos.map (fun c => c.bufs.map (bufAt file)) = f.cols.map (fun c => c.buffers.map .ok)) := by
  obtain ⟨w2, nv, m, k, hl, hr, hv, hfile, m1, m2, m3, m4, m5, m6, m7, m8, _⟩ := finish_read cd cm hcd hcm hw hf hg
  subst hfile
  obtain ⟨z, hz⟩ := close_prefix cd cm (sch, w2.rows) nv w2
  have hm : m.schema = sch ∧ m.rows = w2.rows := by
    have := m2
    simp only [Prod.mk.injEq] at this
    exact this
  -- the columns, one by one
  have hcol : ∀ i, i < n → ∃ c fc, w2.cols[i]? = some c ∧ f.cols[i]? = some fc ∧
      m.infos[i]? = some ⟨i, c.pages.map Page.info, c.offsets.zip c.sizes, fc.enc⟩ := by
    intro i hi
    have h1 : w2.cols[i]? = some (w2.cols[i]'(by rw [k.num]; exact hi)) := List.getElem?_eq_getElem (by rw [k.num]; exact hi)
    have h2 : f.cols[i]? = some (f.cols[i]'(by omega)) := List.getElem?_eq_getElem (by omega)
    exact ⟨_, _, h1, h2, m5 i _ _ h1 (by rw [List.getElem?_map, h2]; rfl)⟩
  have hcols : ∀ {β : Type} (g : ColInfo A S C → β) (l : List β), l.length = n →
      (∀ i c fc, w2.cols[i]? = some c → f.cols[i]? = some fc →
        l[i]? = some (g ⟨i, c.pages.map Page.info, c.offsets.zip c.sizes, fc.enc⟩)) → m.infos.map g = l := by
    intro β g l hl' h
    refine List.ext_getElem? (fun i => ?_)
    rw [List.getElem?_map]
    by_cases hi : i < n
    · obtain ⟨c, fc, c1, c2, c3⟩ := hcol i hi
      rw [c3, h i c fc c1 c2]
      rfl
    · rw [List.getElem?_eq_none (by rw [m4, k.num]; omega), List.getElem?_eq_none (by omega)]
      rfl
  refine ⟨m, by rw [readAll_eq cd cm block hb]; exact m1, hm.1, hm.2.trans hr, by rw [m7, hv], ?_, ?_, ?_, ?_, ?_, ?_⟩
  · refine hcols _ _ (by simp) (fun i c fc h1 _ => ?_)
    have : i < n := by rw [← k.num]; exact (List.getElem?_eq_some_iff.mp h1).1
    simp [this]
  · refine hcols _ _ (by simp) (fun i c fc h1 _ => ?_)
    have : i < n := by rw [← k.num]; exact (List.getElem?_eq_some_iff.mp h1).1
    simp only [List.getElem?_map, List.getElem?_range this, Option.map_some, List.map_map, Option.some.injEq]
    refine (Both.map_eq ?_ ((k.pages i c h1).imp (fun _ _ q => q.append z))).symm
    intro p e hs
    rw [← hz] at hs
    simp only [Function.comp, PageInfo.show, EncPage.show, Page.info, hs.enc, hs.length, hs.priority, hs.bufs]
  · refine hcols _ _ (by simp [hl]) (fun i c fc _ h2 => ?_)
    rw [List.getElem?_map, h2]
    rfl
  · rw [m6]
    simp only [List.drop_succ_cons, List.drop_zero]
    rw [hz]
    exact map_bufAt_append k.globals z
  · rw [m6, hm.2]
    simp only [List.take_succ_cons, List.take_zero, List.map_cons, List.map_nil]
    rw [m8]
  · intro hbuf
    refine hcols _ _ (by simp [hl]) (fun i c fc h1 h2 => ?_)
    rw [List.getElem?_map, h2]
    simp only [Option.map_some, Option.some.injEq]
    rw [hz]
    exact (map_bufAt_append ((k.fin i c fc h1 h2).2 (hbuf fc (List.mem_of_getElem? h2))) z).symm

/-- The statistics of a finished file account for every byte: data (with padding), global buffers, column metadata, the
table of global buffers and the footer. -/
theorem C94_bytes (cd : Codec (T × Nat)) (cm : Codec (ColMeta A S C)) (hcd : ∀ d, cd.dec (cd.enc d) = some d)
    (hcm : ∀ m, cm.dec (cm.enc m) = some m) (v : Ver) (sch : T) (n : Nat) (os : List (Op A S)) (f : Fin A S C)
    (w : Wr A S C) (file : Bytes) (hw : runOps os (Wr.new n) = some w) (hf : finish cd cm v sch f w = some file)
    (hg : Good v n os f file) (block : Nat) (hb : 40 ≤ block) (m : Meta T A S C) (hm : readAll cd cm block file = .ok m) :
    m.dataBytes + m.globalBytes + m.metaBytes + 16 * m.bufs.length + 40 = file.length ∧
      m.bufs.length = (os.flatMap Op.globals).length + 1 ∧ m.globalBytes = (cd.enc (sch, m.rows)).length +
        ((os.flatMap Op.globals).map List.length).sum := by
  obtain ⟨w2, nv, m', k, hl, hr, hv, hfile, m1, m2, m3, m4, m5, m6, m7, m8, m9, _, m11⟩ := finish_read cd cm hcd hcm hw hf hg
  rw [readAll_eq cd cm block hb, m1] at hm
  cases hm
  have hgl : w2.globals.length = (os.flatMap Op.globals).length := by
    have := congrArg List.length k.globals
    simpa using this
  have hr' : m.rows = w2.rows := congrArg Prod.snd m2
  refine ⟨m11, by rw [m6, List.length_cons, hgl], ?_⟩
  rw [m9, m6, hr', List.map_cons, List.sum_cons]
  congr 2
  exact lengths_of_bufs k.globals

/-- Reading blocks of another size makes no difference, whatever the bytes of the file are. -/
theorem C94_any_block (cd : Codec (T × Nat)) (cm : Codec (ColMeta A S C)) (file : Bytes) (b1 b2 : Nat) (h1 : 40 ≤ b1)
    (h2 : 40 ≤ b2) : readAll cd cm b1 file = readAll cd cm b2 file := by
  rw [readAll_eq cd cm b1 h1, readAll_eq cd cm b2 h2]

/-- Only a file that ends with "LANC", and is not of version 0.2, opens. -/
theorem C94_only_lance_files (cd : Codec (T × Nat)) (cm : Codec (ColMeta A S C)) (file : Bytes) (block : Nat)
    (hb : 40 ≤ block) (m : Meta T A S C) (h : readAll cd cm block file = .ok m) :
    file.drop (file.length - 4) = [76, 65, 78, 67] ∧ 40 ≤ file.length ∧ (m.major, m.minor) ≠ (0, 2) ∧
      ((m.major = 0 ∧ m.minor ≤ 3) ∨ (m.major = 2 ∧ m.minor ≤ 1)) := by
  rw [readAll_eq cd cm block hb, readWhole] at h
  cases hf : decodeFooter file with
  | error e => rw [hf] at h; cases h
  | ok ft =>
    have h0 := hf
    rw [hf] at h
    simp only at h
    unfold decodeFooter at hf
    split at hf
    · cases hf
    · rename_i h40
      simp only at hf
      split at hf
      · cases hf
      · rename_i hold
        split at hf
        · cases hf
        · rename_i hmagic
          cases hv : verOf ft.major ft.minor with
          | error e => rw [hv] at h; cases h
          | ok v =>
            have hmm : m.major = ft.major ∧ m.minor = ft.minor := by
              rw [hv] at h
              simp only at h
              split at h
              · cases h
              split at h
              · cases h
              · cases h
              split at h
              · cases h
              split at h
              · cases h
              split at h
              · cases h
              split at h
              · cases h
              split at h
              · cases h
              split at h
              · cases h
              split at h
              · cases h
              split at h
              · cases h
              cases h
              exact ⟨rfl, rfl⟩
            cases hf
            refine ⟨Decidable.not_not.mp hmagic, by omega, ?_, ?_⟩
            · rw [hmm.1, hmm.2]
              intro hx
              simp only [Prod.mk.injEq] at hx
              exact hold hx
            · rw [hmm.1, hmm.2]
              unfold verOf at hv
              split at hv
              · omega
              · split at hv
                · omega
                · split at hv
                  · omega
                  · split at hv
                    · omega
                    · cases hv

/-! ### Buffers outside of pages -/

/-- The buffers that an encoder puts outside of the pages in `write_batch` are at the positions that the encoder was told,
whatever is written before and after. -/
theorem C94_external (cd : Codec (T × Nat)) (cm : Codec (ColMeta A S C)) (v : Ver) (sch : T) (n k : Nat)
    (before after : List (Op A S)) (ext : List Bytes) (pages : List (EncPage A S)) (f : Fin A S C) (w w' : Wr A S C)
    (file : Bytes) (hw : runOps before (Wr.new n) = some w) (hk : k ≠ 0)
    (hw' : runOps (before ++ [.batch k ext pages] ++ after) (Wr.new n) = some w')
    (hf : finish cd cm v sch f w' = some file) :
    ((extPositions w.out.length ext).zip (ext.map List.length)).map (bufAt file) = ext.map .ok := by
  rw [List.append_assoc, runOps_append, hw] at hw'
  simp only [Option.bind_some, List.cons_append, List.nil_append, runOps, Option.bind_eq_some_iff] at hw'
  obtain ⟨w1, h1, h2⟩ := hw'
  obtain ⟨k1, _⟩ := runOps_inv before (Inv.new n) hw
  obtain ⟨k2, _, y2, e2⟩ := stepOp_inv k1 h1
  obtain ⟨k3, _, y3, e3⟩ := runOps_inv after k2 h2
  obtain ⟨y1, e1⟩ : ∃ y, w1.out = w.out ++ (ext.map padded).flatten ++ y := by
    simp only [stepOp, if_neg hk] at h1
    split at h1
    · split at h1
      · obtain ⟨_, y, hy⟩ := writePages_inv pages
          (w := { w with out := w.out ++ (ext.map padded).flatten, rows := w.rows + k }) (by
            have hx := k1.more (ext.map padded).flatten
            exact ⟨hx.num, hx.pages, hx.globals, hx.gsum, hx.fin, hx.rest⟩) h1
        exact ⟨y, hy⟩
      · cases h1
    · cases h1
  obtain ⟨w2, nv, _, _, _, _, hfile, _, y, hy⟩ := finish_inv (n := n) (os := before ++ [.batch k ext pages] ++ after)
    (by rw [List.append_assoc, runOps_append, hw]
        simp only [Option.bind_some, List.cons_append, List.nil_append, runOps, h1, h2]) hf
  obtain ⟨z, hz⟩ := close_prefix cd cm (sch, w2.rows) nv w2
  rw [hfile, hz, hy, e3, e1]
  simp only [List.append_assoc]
  rw [← List.append_assoc]
  exact map_bufAt_append (extPositions_bufs w.out ext) _

/-- And so are those of the last flush. -/
theorem C94_external_flush (cd : Codec (T × Nat)) (cm : Codec (ColMeta A S C)) (v : Ver) (sch : T) (n : Nat)
    (os : List (Op A S)) (f : Fin A S C) (w : Wr A S C) (file : Bytes) (hw : runOps os (Wr.new n) = some w)
    (hf : finish cd cm v sch f w = some file) :
    ((extPositions w.out.length f.ext).zip (f.ext.map List.length)).map (bufAt file) = f.ext.map .ok := by
  obtain ⟨w2, nv, _, _, _, _, hfile, _, y, hy⟩ := finish_inv hw hf
  obtain ⟨z, hz⟩ := close_prefix cd cm (sch, w2.rows) nv w2
  rw [hfile, hz, hy, List.append_assoc _ y z]
  exact map_bufAt_append (extPositions_bufs w.out f.ext) (y ++ z)

/-- The positions that encoders are told when the columns are finished are right if the buffers (but the last) need no
padding.  Partial: see `C94_external_violated`. -/
theorem C94_external_finish_partial (cd : Codec (T × Nat)) (cm : Codec (ColMeta A S C)) (v : Ver) (sch : T) (n : Nat)
    (os : List (Op A S)) (f : Fin A S C) (g : FinGroup A S C) (gs : List (FinGroup A S C)) (hgs : f.groups = g :: gs)
    (w w1 : Wr A S C) (file : Bytes) (hw : runOps os (Wr.new n) = some w)
    (hw1 : writePages f.pages { w with out := w.out ++ (f.ext.map padded).flatten } = some w1)
    (hf : finish cd cm v sch f w = some file) (ha : ∀ b ∈ g.ext.dropLast, b.length % 64 = 0) :
    ((extPositions w1.out.length g.ext).zip (g.ext.map List.length)).map (bufAt file) = g.ext.map .ok := by
  obtain ⟨w1', w2, nv, h1, h2, h3, h4⟩ := finish_parts hf
  rw [hw1] at h1
  cases h1
  obtain ⟨k1, _⟩ := runOps_inv os (Inv.new n) hw
  obtain ⟨k2, _, _⟩ := writePages_inv f.pages (k1.more _) hw1
  rw [hgs, finishGroups, Option.bind_eq_some_iff] at h2
  obtain ⟨w3, g1, g2⟩ := h2
  obtain ⟨k3, _, y1, e1⟩ := finishCols_inv g.cols (k2.more g.ext.flatten) g1
  have hlen : (([] : List (FinCol A S C)) ++ g.cols).length = 0 + g.cols.length := by simp
  rw [← hlen] at g2
  obtain ⟨_, _, _, y2, e2⟩ := finishGroups_inv gs k3 g2
  obtain ⟨z, hz⟩ := close_prefix cd cm (sch, w2.rows) nv w2
  rw [h4, hz, e2, e1]
  simp only [List.append_assoc]
  rw [← List.append_assoc]
  exact map_bufAt_append (extPositions_flat w1.out g.ext ha) _

/-! ### What does not hold -/

/-- The buffers of columns are read back. -/
def C94_column_buffers_statement : Prop :=
  ∀ (v : Ver) (n : Nat) (os : List (Op Unit Unit)) (f : Fin Unit Unit Unit) (w : Wr Unit Unit Unit) (file : Bytes)
    (m : Meta Unit Unit Unit Unit), runOps os (Wr.new n) = some w → finish unitCd unitCm v () f w = some file →
    Good v n os f file → readAll unitCd unitCm 4096 file = .ok m →
    m.infos.map (fun c => c.bufs.map (bufAt file)) = f.cols.map (fun c => c.buffers.map .ok)

/-- A column with two buffers of one byte: the second is looked for right behind the first, where the padding is. -/
theorem C94_column_buffers_violated : ¬ C94_column_buffers_statement := by
  intro h
  let f : Fin Unit Unit Unit := ⟨[], [], [⟨[], [⟨[], [[1], [2]], ()⟩]⟩]⟩
  have hfin : ∃ file, finish unitCd unitCm .v20 () f (Wr.new 1) = some file ∧ file.length < 2 ^ 64 ∧
      ∃ m, readAll unitCd unitCm 4096 file = .ok m ∧
        m.infos.map (fun c => c.bufs.map (bufAt file)) ≠ f.cols.map (fun c => c.buffers.map .ok) := by
    have hd : (finish unitCd unitCm .v20 () f (Wr.new 1)).any (fun file => decide (file.length < 2 ^ 64) &&
        okAnd (readAll unitCd unitCm 4096 file) (fun m => decide
          (m.infos.map (fun c => c.bufs.map (bufAt file)) ≠ f.cols.map (fun c => c.buffers.map .ok)))) = true := by
      decide +kernel
    obtain ⟨file, h1, h2⟩ := any_true hd
    rw [Bool.and_eq_true] at h2
    obtain ⟨m, h3, h4⟩ := okAnd_true h2.2
    exact ⟨file, h1, of_decide_eq_true h2.1, m, h3, of_decide_eq_true h4⟩
  obtain ⟨file, h1, h2, m, h3, h4⟩ := hfin
  refine h4 (h .v20 1 [] f (Wr.new 1) file m rfl h1 ⟨h2, by decide, by decide, ?_, fun hv => nomatch hv⟩ h3)
  intro p hp
  cases hp

/-- A finished file opens, also if encoders finish with buffers outside of pages. -/
def C94_external_statement : Prop :=
  ∀ (v : Ver) (n : Nat) (os : List (Op Unit Unit)) (f : Fin Unit Unit Unit) (w : Wr Unit Unit Unit) (file : Bytes),
    runOps os (Wr.new n) = some w → finish unitCd unitCm v () f w = some file → file.length < 2 ^ 64 →
    (∀ p ∈ written os f, Kind v p.desc) →
    ∃ m, readAll unitCd unitCm 4096 file = .ok m

/-- A 2.1 file with a single such buffer of one byte cannot be opened: the position of the descriptor is not aligned. -/
theorem C94_external_violated : ¬ C94_external_statement := by
  intro h
  let f : Fin Unit Unit Unit := ⟨[], [], [⟨[[1]], [⟨[], [], ()⟩]⟩]⟩
  have hfin : ∃ file, finish unitCd unitCm .v21 () f (Wr.new 1) = some file ∧ file.length < 2 ^ 64 ∧
      readAll unitCd unitCm 4096 file = .error .panic := by
    have hd : (finish unitCd unitCm .v21 () f (Wr.new 1)).any (fun file => decide (file.length < 2 ^ 64 ∧
        readAll unitCd unitCm 4096 file = .error .panic)) = true := by decide +kernel
    obtain ⟨file, h1, h2⟩ := any_true hd
    exact ⟨file, h1, of_decide_eq_true h2⟩
  obtain ⟨file, h1, h2, h3⟩ := hfin
  obtain ⟨m, hm⟩ := h .v21 1 [] f (Wr.new 1) file rfl h1 h2 (fun p hp => nomatch hp)
  rw [h3] at hm
  cases hm

/-- In a 2.0 file the second of two such buffers is not where its encoder was told. -/
theorem C94_external_positions_violated : ∃ (f : Fin Unit Unit Unit) (g : FinGroup Unit Unit Unit) (file : Bytes),
    f.ext = [] ∧ f.pages = [] ∧ f.groups = [g] ∧ finish unitCd unitCm .v20 () f (Wr.new 1) = some file ∧
    (∃ m, readAll unitCd unitCm 4096 file = .ok m) ∧
    ((extPositions 0 g.ext).zip (g.ext.map List.length)).map (bufAt file) ≠ g.ext.map .ok := by
  let g : FinGroup Unit Unit Unit := ⟨[[1], [2]], [⟨[], [], ()⟩]⟩
  have hd : (finish unitCd unitCm .v20 () ⟨[], [], [g]⟩ (Wr.new 1)).any (fun file =>
      okAnd (readAll unitCd unitCm 4096 file) (fun _ => decide
        (((extPositions 0 g.ext).zip (g.ext.map List.length)).map (bufAt file) ≠ g.ext.map .ok))) = true := by
    decide +kernel
  obtain ⟨file, h1, h2⟩ := any_true hd
  obtain ⟨m, h3, h4⟩ := okAnd_true h2
  exact ⟨_, g, file, rfl, rfl, rfl, h1, ⟨m, h3⟩, of_decide_eq_true h4⟩

/-- Opening a file gives a result or an error, whatever its bytes are. -/
def C94_never_panics_statement : Prop :=
  ∀ file, readAll unitCd unitCm 4096 file ≠ .error .panic

/-- A file with a footer whose table says that the descriptor is longer than the file. -/
theorem C94_never_panics_violated : ¬ C94_never_panics_statement := fun h =>
  h (table [(0, 1000)] ++ footer 0 0 0 1 0 2 1) (by decide +kernel)

/-! ### A case -/

/-- Two columns, three pages (one of the last flush, one of the end), a global buffer between two batches, an empty batch,
and buffers outside of pages. -/
def caseOps : List (Op Unit Unit) :=
  [.batch 3 [[9, 9]] [⟨[[1, 2, 3], [4]], .structural (), 3, 0, 1⟩], .global [7, 7, 7], .batch 0 [] [],
    .batch 2 [[8], [6]] []]

def caseFin : Fin Unit Unit Unit :=
  ⟨[[5]], [⟨[[11, 12, 13, 14, 15]], .structural (), 5, 0, 0⟩],
    [⟨[], [⟨[⟨[[20]], .structural (), 2, 3, 1⟩], [[30, 31]], ()⟩]⟩, ⟨[], [⟨[], [], ()⟩]⟩]⟩

theorem C94_open_nonvacuous : ∃ w file, runOps caseOps (Wr.new 2) = some w ∧
    finish unitCd unitCm .v21 () caseFin w = some file ∧ Good .v21 2 caseOps caseFin file ∧
    (∀ c ∈ caseFin.cols, ∀ b ∈ c.buffers.dropLast, b.length % 64 = 0) ∧ w.out.length = 384 := by
  have hd : ((runOps caseOps (Wr.new 2)).bind (fun w => (finish unitCd unitCm .v21 () caseFin w).map (fun file =>
      (w, file)))).any (fun r => decide (r.2.length < 2 ^ 64 ∧ r.1.out.length = 384)) = true := by decide +kernel
  obtain ⟨⟨w, file⟩, h1, h2⟩ := any_true hd
  obtain ⟨w', h3, h4⟩ := Option.bind_eq_some_iff.mp h1
  obtain ⟨file', h5, h6⟩ := Option.map_eq_some_iff.mp h4
  cases h6
  obtain ⟨h7, h8⟩ := of_decide_eq_true h2
  refine ⟨w, file, h3, h5, ⟨h7, by decide, by decide, ?_, fun _ => by decide⟩, by decide, h8⟩
  intro p hp
  simp only [written, caseOps, caseFin, Fin.cols, Op.pages, List.flatMap_cons, List.flatMap_nil] at hp
  simp at hp
  rcases hp with rfl | rfl | rfl <;> exact True.intro

/-- What the file of the case shows. -/
theorem C94_case : ∃ w file m, runOps caseOps (Wr.new 2) = some w ∧ finish unitCd unitCm .v21 () caseFin w = some file ∧
    readAll unitCd unitCm 64 file = .ok m ∧ m.rows = 5 ∧
    m.infos.map (fun c => c.pages.map (fun p => (p.rows, p.bufs.map (bufAt file)))) =
      [[(5, [.ok [11, 12, 13, 14, 15]])], [(3, [.ok [1, 2, 3], .ok [4]]), (2, [.ok [20]])]] ∧
    (m.bufs.drop 1).map (bufAt file) = [.ok [7, 7, 7]] := by
  have hd : ((runOps caseOps (Wr.new 2)).bind (fun w => (finish unitCd unitCm .v21 () caseFin w).map (fun file =>
      (w, file)))).any (fun r => okAnd (readAll unitCd unitCm 64 r.2) (fun m => decide (m.rows = 5 ∧
        m.infos.map (fun c => c.pages.map (fun p => (p.rows, p.bufs.map (bufAt r.2)))) =
          [[(5, [.ok [11, 12, 13, 14, 15]])], [(3, [.ok [1, 2, 3], .ok [4]]), (2, [.ok [20]])]] ∧
        (m.bufs.drop 1).map (bufAt r.2) = [.ok [7, 7, 7]]))) = true := by decide +kernel
  obtain ⟨⟨w, file⟩, h1, h2⟩ := any_true hd
  obtain ⟨w', h3, h4⟩ := Option.bind_eq_some_iff.mp h1
  obtain ⟨file', h5, h6⟩ := Option.map_eq_some_iff.mp h4
  cases h6
  obtain ⟨m, h7, h8⟩ := okAnd_true h2
  exact ⟨w, file, m, h3, h5, h7, of_decide_eq_true h8⟩

end Verif.File
