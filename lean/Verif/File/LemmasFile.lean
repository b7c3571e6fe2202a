import Verif.File.LemmasRead

/-! From the calls of the writer to the file, and the positions of buffers outside of pages. -/
namespace Verif.File

variable {A S C M T : Type}

/-- All the columns that the encoders finish. -/
def Fin.cols (f : Fin A S C) : List (FinCol A S C) := f.groups.flatMap FinGroup.cols

/-- All the pages that the encoders make, in the order in which they are written. -/
def written (os : List (Op A S)) (f : Fin A S C) : List (EncPage A S) :=
  os.flatMap Op.pages ++ f.pages ++ f.cols.flatMap FinCol.pages

theorem finish_parts {cd : Codec (T × Nat)} {cm : Codec (ColMeta A S C)} {v : Ver} {sch : T} {f : Fin A S C}
    {w : Wr A S C} {file : Bytes} (h : finish cd cm v sch f w = some file) :
    ∃ w1 w2 nv, writePages f.pages { w with out := w.out ++ (f.ext.map padded).flatten } = some w1 ∧
      finishGroups 0 f.groups w1 = some w2 ∧ v.numbers = some nv ∧ file = close cd cm (sch, w2.rows) nv w2 := by
  rw [finish, Option.bind_eq_some_iff] at h
  obtain ⟨w1, h1, h⟩ := h
  rw [Option.bind_eq_some_iff] at h
  obtain ⟨w2, h2, h⟩ := h
  rw [Option.map_eq_some_iff] at h
  obtain ⟨nv, h3, h4⟩ := h
  exact ⟨w1, w2, nv, h1, h2, h3, h4.symm⟩

theorem close_prefix (cd : Codec (T × Nat)) (cm : Codec (ColMeta A S C)) (d : T × Nat) (nv : Nat × Nat) (w : Wr A S C) :
    ∃ y, close cd cm d nv w = w.out ++ y := by
  unfold close
  simp only [List.append_assoc]
  exact ⟨_, rfl⟩

theorem finish_inv {cd : Codec (T × Nat)} {cm : Codec (ColMeta A S C)} {v : Ver} {sch : T} {n : Nat} {os : List (Op A S)}
    {f : Fin A S C} {w : Wr A S C} {file : Bytes} (hw : runOps os (Wr.new n) = some w)
    (h : finish cd cm v sch f w = some file) :
    ∃ w2 nv, Inv w2 n (written os f) (os.flatMap Op.globals) f.cols ∧ f.cols.length = n ∧
      w2.rows = (os.map Op.rows).sum ∧ v.numbers = some nv ∧ file = close cd cm (sch, w2.rows) nv w2 ∧
      ((∀ g ∈ f.groups, g.ext.flatten.length % 64 = 0) → Al w2) ∧ ∃ y, w2.out = w.out ++ (f.ext.map padded).flatten ++ y := by
  obtain ⟨w1, w2, nv, h1, h2, h3, h4⟩ := finish_parts h
  obtain ⟨k1, r1, _⟩ := runOps_inv os (Inv.new n) hw
  obtain ⟨k2, y1, e1⟩ := writePages_inv f.pages (k1.more _) h1
  obtain ⟨k3, l3, r3, y2, e2⟩ := finishGroups_inv f.groups k2 h2
  refine ⟨w2, nv, ?_, ?_, ?_, h3, h4, ?_, y1 ++ y2, ?_⟩
  · simpa [written, Fin.cols] using k3
  · simpa [Fin.cols] using l3
  · rw [r3, (writePages_same f.pages h1).1, r1]
    simp [Wr.new]
  · intro hg
    refine finishGroups_al f.groups hg (writePages_al f.pages ?_ h1) h2
    have := runOps_al os (Al.new n) hw
    have h' := flatten_padded_aligned f.ext
    exact ⟨by have := this.out; simp only [List.length_append]; omega, this.pages, this.globals⟩
  · rw [e2, e1]
    simp

/-- The conditions on a run. -/
structure Good (v : Ver) (n : Nat) (os : List (Op A S)) (f : Fin A S C) (file : Bytes) : Prop where
  size : file.length < 2 ^ 64
  columns : n ≤ 2 ^ 28
  globals : (os.flatMap Op.globals).length + 1 < 2 ^ 32
  kinds : ∀ p ∈ written os f, Kind v p.desc
  aligned : v = .v21 → ∀ g ∈ f.groups, g.ext.flatten.length % 64 = 0

theorem finish_read (cd : Codec (T × Nat)) (cm : Codec (ColMeta A S C)) (hcd : ∀ d, cd.dec (cd.enc d) = some d)
    (hcm : ∀ m, cm.dec (cm.enc m) = some m) {v : Ver} {sch : T} {n : Nat} {os : List (Op A S)} {f : Fin A S C}
    {w : Wr A S C} {file : Bytes} (hw : runOps os (Wr.new n) = some w) (hf : finish cd cm v sch f w = some file)
    (hg : Good v n os f file) :
    ∃ w2 nv m, Inv w2 n (written os f) (os.flatMap Op.globals) f.cols ∧ f.cols.length = n ∧
      w2.rows = (os.map Op.rows).sum ∧ v.numbers = some nv ∧ file = close cd cm (sch, w2.rows) nv w2 ∧
      readWhole cd cm file = .ok m ∧ (m.schema, m.rows) = (sch, w2.rows) ∧ m.metas = w2.cols ∧
      m.infos.length = w2.cols.length ∧
      (∀ (i : Nat) (c : ColMeta A S C) (e : C), w2.cols[i]? = some c → (f.cols.map (·.enc))[i]? = some e →
        m.infos[i]? = some ⟨i, c.pages.map Page.info, c.offsets.zip c.sizes, e⟩) ∧
      m.bufs = (w2.out.length, (cd.enc (sch, w2.rows)).length) :: w2.globals ∧ (m.major, m.minor) = nv ∧
      bufAt file (w2.out.length, (cd.enc (sch, w2.rows)).length) = .ok (cd.enc (sch, w2.rows)) ∧
      m.globalBytes = (m.bufs.map (·.2)).sum ∧ m.footerBytes + w2.out.length = file.length ∧
      m.dataBytes + m.globalBytes + m.metaBytes + 16 * m.bufs.length + 40 = file.length := by
  obtain ⟨w2, nv, k, hl, hr, hv, hfile, hal, y, hy⟩ := finish_inv hw hf
  have hes : w2.cols.map (·.enc) = (f.cols.map (·.enc)).map some := by
    refine List.ext_getElem? (fun i => ?_)
    simp only [List.getElem?_map]
    cases hc : w2.cols[i]? with
    | none =>
      have : n ≤ i := by rw [← k.num]; exact List.getElem?_eq_none_iff.mp hc
      rw [List.getElem?_eq_none (by omega)]
      rfl
    | some c =>
      have : i < n := by rw [← k.num]; exact (List.getElem?_eq_some_iff.mp hc).1
      have hc' : f.cols[i]? = some (f.cols[i]'(by omega)) := List.getElem?_eq_getElem (by omega)
      rw [hc']
      simp only [Option.map_some]
      rw [(k.fin i c _ hc hc').1]
  have hkinds : ∀ c ∈ w2.cols, ∀ p ∈ c.pages, Kind v p.enc := by
    intro c hc p hp
    obtain ⟨i, hi⟩ := List.mem_iff_getElem?.mp hc
    have hb := k.pages i c hi
    obtain ⟨e, he, hs⟩ := hb.exists_right p hp
    rw [hs.enc]
    exact hg.kinds e (List.mem_filter.mp he).1
  have hgl : w2.globals.length = (os.flatMap Op.globals).length := by
    have := congrArg List.length k.globals
    simpa using this
  have hgr : ∀ e ∈ w2.globals, e.1 + e.2 ≤ w2.out.length := by
    intro e he
    have : bufAt w2.out e ∈ w2.globals.map (bufAt w2.out) := List.mem_map_of_mem he
    rw [k.globals] at this
    obtain ⟨b, _, hb⟩ := List.mem_map.mp this
    simp only [bufAt, readRange] at hb
    split at hb
    · omega
    · cases hb
  subst hfile
  obtain ⟨m, h⟩ := close_read cd cm hcd hcm v nv hv (sch, w2.rows) w2 _ hes hg.size
    (by rw [k.num]; exact hg.columns) (by rw [hgl]; exact hg.globals) hgr k.gsum hkinds (fun hv21 => hal (hg.aligned hv21))
  exact ⟨w2, nv, m, k, hl, hr, hv, rfl, h⟩

theorem runOps_append (a b : List (Op A S)) (w : Wr A S C) : runOps (a ++ b) w = (runOps a w).bind (runOps b) := by
  induction a generalizing w with
  | nil => rfl
  | cons o a ih =>
    rw [List.cons_append, runOps, runOps]
    cases stepOp o w with
    | none => rfl
    | some w1 => exact ih w1

theorem lengths_of_bufs {out : Bytes} {l : List (Nat × Nat)} {bs : List Bytes} (h : l.map (bufAt out) = bs.map .ok) :
    l.map (·.2) = bs.map List.length := by
  induction l generalizing bs with
  | nil =>
    cases bs with
    | nil => rfl
    | cons b bs => simp at h
  | cons e l ih =>
    cases bs with
    | nil => simp at h
    | cons b bs =>
      simp only [List.map_cons, List.cons.injEq] at h ⊢
      refine ⟨?_, ih h.2⟩
      have h1 := h.1
      simp only [bufAt, readRange] at h1
      split at h1
      · simp only [Except.ok.injEq] at h1
        rw [← h1, List.length_take, List.length_drop]
        omega
      · cases h1

theorem extPositions_bufs (out : Bytes) (bs : List Bytes) :
    ((extPositions out.length bs).zip (bs.map List.length)).map (bufAt (out ++ (bs.map padded).flatten)) = bs.map .ok := by
  induction bs generalizing out with
  | nil => rfl
  | cons b bs ih =>
    simp only [extPositions, List.map_cons, List.zip_cons_cons, List.cons.injEq, List.flatten_cons]
    refine ⟨?_, ?_⟩
    · have := bufAt_here out b (List.replicate (pad b.length) 72 ++ (bs.map padded).flatten)
      rw [← this]
      simp [padded]
    · have := ih (out ++ padded b)
      rw [List.length_append] at this
      rw [← List.append_assoc, ← this]
      simp [padded, Nat.add_assoc]

/-- Without padding the positions are right when the buffers need none. -/
theorem extPositions_flat (out : Bytes) (bs : List Bytes) (h : ∀ b ∈ bs.dropLast, b.length % 64 = 0) :
    ((extPositions out.length bs).zip (bs.map List.length)).map (bufAt (out ++ bs.flatten)) = bs.map .ok := by
  induction bs generalizing out with
  | nil => rfl
  | cons b bs ih =>
    simp only [extPositions, List.map_cons, List.zip_cons_cons, List.cons.injEq, List.flatten_cons]
    refine ⟨bufAt_here out b bs.flatten ▸ by simp, ?_⟩
    cases bs with
    | nil => rfl
    | cons b' bs' =>
      have hb : b.length % 64 = 0 := h b (by simp)
      have := ih (out ++ b) (fun x hx => h x (by
        rw [List.dropLast_cons_of_ne_nil (by simp)]
        exact List.mem_cons_of_mem _ hx))
      rw [List.length_append] at this
      rw [pad_zero hb, Nat.add_zero, ← List.append_assoc]
      exact this

/-! ### For the cases -/

deriving instance DecidableEq for Except

theorem any_true {α : Type} {o : Option α} {q : α → Bool} (h : o.any q = true) : ∃ a, o = some a ∧ q a = true := by
  cases o with
  | none => cases h
  | some a => exact ⟨a, rfl, h⟩

/-- A result of which something holds. -/
def okAnd {α : Type} (r : Except Fail α) (q : α → Bool) : Bool :=
  match r with
  | .error _ => false
  | .ok a => q a

theorem okAnd_true {α : Type} {r : Except Fail α} {q : α → Bool} (h : okAnd r q = true) : ∃ a, r = .ok a ∧ q a = true := by
  cases r with
  | error e => cases h
  | ok a => exact ⟨a, rfl, h⟩

def encList (l : List Nat) : Bytes := l.length :: l

def decList : Bytes → Option (List Nat × Bytes)
  | [] => none
  | n :: r => if r.length < n then none else some (r.take n, r.drop n)

theorem decList_enc (l : List Nat) (r : Bytes) : decList (encList l ++ r) = some (l, r) := by
  simp only [encList, List.cons_append, decList]
  rw [if_neg (by rw [List.length_append]; omega), List.take_left, List.drop_left]

def encPage (p : Page Unit Unit) : Bytes :=
  encList p.offsets ++ (encList p.sizes ++
    [match p.enc with | .legacy _ => 0 | .structural _ => 1, p.length, p.priority])

def decPage (b : Bytes) : Option (Page Unit Unit × Bytes) :=
  (decList b).bind (fun (os, b) => (decList b).bind (fun (ss, b) =>
    match b with
    | k :: l :: p :: r => some (⟨os, ss, if k = 0 then .legacy () else .structural (), l, p⟩, r)
    | _ => none))

theorem decPage_enc (p : Page Unit Unit) (r : Bytes) : decPage (encPage p ++ r) = some (p, r) := by
  obtain ⟨os, ss, e, l, pr⟩ := p
  unfold decPage encPage
  rw [List.append_assoc, decList_enc]
  simp only [Option.bind_some]
  rw [List.append_assoc, decList_enc]
  cases e <;> rfl

def decPages : Nat → Bytes → Option (List (Page Unit Unit) × Bytes)
  | 0, b => some ([], b)
  | n + 1, b => (decPage b).bind (fun (p, b) => (decPages n b).map (fun (ps, b) => (p :: ps, b)))

theorem decPages_enc (ps : List (Page Unit Unit)) (r : Bytes) :
    decPages ps.length (ps.flatMap encPage ++ r) = some (ps, r) := by
  induction ps with
  | nil => rfl
  | cons p ps ih =>
    rw [List.flatMap_cons, List.append_assoc, List.length_cons, decPages, decPage_enc]
    simp [ih]

/-- A codec of column metadata. -/
def unitCm : Codec (ColMeta Unit Unit Unit) where
  enc c := (if c.enc.isSome then 1 else 0) :: c.pages.length :: (c.pages.flatMap encPage ++ (encList c.offsets ++
    (encList c.sizes ++ [])))
  dec b :=
    match b with
    | e :: n :: b => (decPages n b).bind (fun (ps, b) => (decList b).bind (fun (os, b) => (decList b).map (fun (ss, _) =>
        ⟨ps, os, ss, if e = 1 then some () else none⟩)))
    | _ => none

/-- A codec of descriptors. -/
def unitCd : Codec (Unit × Nat) where
  enc d := [d.2]
  dec b := b.head?.map (fun n => ((), n))

theorem unitCm_ok : ∀ m, unitCm.dec (unitCm.enc m) = some m := by
  rintro ⟨ps, os, ss, e⟩
  simp only [unitCm]
  rw [decPages_enc]
  simp only [Option.bind_some]
  rw [decList_enc]
  simp only [Option.bind_some]
  rw [decList_enc]
  cases e <;> rfl

theorem unitCd_ok : ∀ d, unitCd.dec (unitCd.enc d) = some d := fun _ => rfl

end Verif.File
