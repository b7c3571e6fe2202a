import Verif.File.Batch

/-! Lemmas about batches in memory. -/
namespace Verif.File

variable {A S C T : Type}

/-! ### The page table -/

/-- A page of the page table shows the page that was made. -/
structure ShowsI (file : Bytes) (p : PageInfo A S) (e : EncPage A S) : Prop where
  enc : p.enc = e.desc
  rows : p.rows = e.rows
  priority : p.priority = e.row
  bufs : p.bufs.map (bufAt file) = e.data.map .ok

theorem ShowsI.append {file : Bytes} {p : PageInfo A S} {e : EncPage A S} (h : ShowsI file p e) (y : Bytes) :
    ShowsI (file ++ y) p e := ⟨h.enc, h.rows, h.priority, map_bufAt_append h.bufs y⟩

theorem layFlat_bufs (out : Bytes) (bs : List Bytes) : (layFlat out.length bs).map (bufAt (out ++ bs.flatten)) = bs.map .ok := by
  induction bs generalizing out with
  | nil => rfl
  | cons b bs ih =>
    simp only [layFlat, List.map_cons, List.flatten_cons, List.cons.injEq]
    refine ⟨by rw [← List.append_assoc]; exact bufAt_here out b bs.flatten, ?_⟩
    have := ih (out ++ b)
    rw [List.length_append] at this
    rw [← List.append_assoc]
    exact this

/-- What holds after the pages `ps` and the columns `fs`. -/
structure MInv (s : Mem A S C) (ps : List (EncPage A S)) (fs : List (FinCol A S C)) : Prop where
  num : s.table.length = fs.length
  done : ∀ (i : Nat) (c : ColInfo A S C), s.table[i]? = some c → c.index = i ∧
    Both (ShowsI s.data) c.pages (ps.filter (fun p => p.col == i))
  wait : ∀ i, s.table.length ≤ i →
    Both (ShowsI s.data) ((s.pend.filter (fun p => p.1 == i)).map (·.2)) (ps.filter (fun p => p.col == i))
  early : ∀ p ∈ s.pend, s.table.length ≤ p.1
  fin : ∀ (i : Nat) (c : ColInfo A S C) (f : FinCol A S C), s.table[i]? = some c → fs[i]? = some f → c.enc = f.enc ∧
    c.bufs.map (bufAt s.data) = f.buffers.map .ok

theorem MInv.more {s : Mem A S C} {ps : List (EncPage A S)} {fs : List (FinCol A S C)} (h : MInv s ps fs) (y : Bytes) :
    MInv { s with data := s.data ++ y } ps fs where
  num := h.num
  done := fun i c hc => ⟨(h.done i c hc).1, (h.done i c hc).2.imp (fun _ _ k => k.append y)⟩
  wait := fun i hi => (h.wait i hi).imp (fun _ _ k => k.append y)
  early := h.early
  fin := fun i c f hc hf => ⟨(h.fin i c f hc hf).1, map_bufAt_append (h.fin i c f hc hf).2 y⟩

theorem addPage_inv {s : Mem A S C} {ps : List (EncPage A S)} {fs : List (FinCol A S C)} (h : MInv s ps fs)
    (p : EncPage A S) (hp : s.table.length ≤ p.col) : MInv (addPage s p) (ps ++ [p]) fs where
  num := h.num
  done := by
    intro i c hc
    have hi : i < s.table.length := (List.getElem?_eq_some_iff.mp hc).1
    rw [List.filter_append, List.filter_cons_of_neg (by simp; omega), List.filter_nil, List.append_nil]
    exact (h.more _).done i c hc
  wait := by
    intro i hi
    have hw := (h.more p.data.flatten).wait i hi
    simp only [addPage, List.filter_append]
    by_cases he : p.col = i
    · rw [List.filter_cons_of_pos (by simpa using he), List.filter_cons_of_pos (by simpa using he), List.filter_nil,
        List.filter_nil, List.map_append]
      exact hw.snoc ⟨rfl, rfl, rfl, layFlat_bufs s.data p.data⟩
    · rw [List.filter_cons_of_neg (by simpa using he), List.filter_cons_of_neg (by simpa using he), List.filter_nil,
        List.filter_nil, List.append_nil, List.append_nil]
      exact hw
  early := by
    intro x hx
    rcases List.mem_append.mp hx with hx' | hx'
    · exact h.early x hx'
    · rw [List.mem_singleton.mp hx']
      exact hp
  fin := (h.more _).fin

theorem addPages_inv (qs : List (EncPage A S)) : ∀ {s : Mem A S C} {ps : List (EncPage A S)} {fs : List (FinCol A S C)},
    MInv s ps fs → (∀ q ∈ qs, s.table.length ≤ q.col) → MInv (qs.foldl addPage s) (ps ++ qs) fs ∧
      (qs.foldl addPage s).table = s.table ∧ (∃ y, (qs.foldl addPage s).data = s.data ++ y) ∧
      ∀ x ∈ (qs.foldl addPage s).pend, x ∈ s.pend ∨ ∃ q ∈ qs, x.1 = q.col := by
  induction qs with
  | nil => intro s ps fs h _; exact ⟨by simpa using h, rfl, ⟨[], by simp⟩, fun x hx => .inl hx⟩
  | cons q qs ih =>
    intro s ps fs h hq
    obtain ⟨k1, k2, ⟨y, k3⟩, k4⟩ := ih (addPage_inv h q (hq q List.mem_cons_self))
      (fun x hx => hq x (List.mem_cons_of_mem _ hx))
    refine ⟨by simpa using k1, k2, ⟨q.data.flatten ++ y, by rw [List.foldl_cons, k3, ← List.append_assoc]; rfl⟩, ?_⟩
    intro x hx
    rcases k4 x hx with hx' | ⟨z, hz, hxz⟩
    · rcases List.mem_append.mp hx' with h' | h'
      · exact .inl h'
      · rw [List.mem_singleton.mp h']
        exact .inr ⟨q, List.mem_cons_self, rfl⟩
    · exact .inr ⟨z, List.mem_cons_of_mem _ hz, hxz⟩

theorem addCol_inv {s : Mem A S C} {ps : List (EncPage A S)} {fs : List (FinCol A S C)} (h : MInv s ps fs)
    (f : FinCol A S C) (hp : ∀ p ∈ f.pages, s.table.length ≤ p.col) :
    MInv (addCol s f) (ps ++ f.pages) (fs ++ [f]) ∧ (∃ y, (addCol s f).data = s.data ++ y) ∧
      ∀ x ∈ (addCol s f).pend, (x ∈ s.pend ∨ ∃ q ∈ f.pages, x.1 = q.col) ∧ x.1 ≠ s.table.length := by
  obtain ⟨k1, k2, ⟨y, k3⟩, k4⟩ := addPages_inv f.pages (h.more f.buffers.flatten) hp
  have hb : (layFlat s.data.length f.buffers).map
      (bufAt (f.pages.foldl addPage { s with data := s.data ++ f.buffers.flatten }).data) = f.buffers.map .ok := by
    rw [k3]
    exact map_bufAt_append (layFlat_bufs s.data f.buffers) y
  have hne : ∀ x ∈ (f.pages.foldl addPage { s with data := s.data ++ f.buffers.flatten }).pend.filter
      (fun p => p.1 != s.table.length), x ∈ (f.pages.foldl addPage { s with data := s.data ++ f.buffers.flatten }).pend ∧
        x.1 ≠ s.table.length := by
    intro x hx
    have := List.mem_filter.mp hx
    exact ⟨this.1, by simpa using this.2⟩
  have hlen : (f.pages.foldl addPage { s with data := s.data ++ f.buffers.flatten }).table.length = s.table.length := by
    rw [k2]
  refine ⟨⟨?_, ?_, ?_, ?_, ?_⟩, ⟨f.buffers.flatten ++ y, ?_⟩, ?_⟩
  · simp only [addCol, List.length_append, k2, List.length_singleton]
    have := h.num
    omega
  · intro i c hc
    simp only [addCol] at hc
    rw [List.getElem?_append] at hc
    split at hc
    · exact k1.done i c hc
    · rename_i hi
      have : i = s.table.length := by
        have := (List.getElem?_eq_some_iff.mp hc).1
        simp only [List.length_singleton] at this
        omega
      subst this
      rw [hlen, Nat.sub_self] at hc
      simp only [List.getElem?_cons_zero, Option.some.injEq] at hc
      subst hc
      exact ⟨rfl, k1.wait s.table.length (by rw [hlen]; exact Nat.le_refl _)⟩
  · intro i hi
    simp only [addCol, List.length_append, List.length_singleton, hlen] at hi
    have hw := k1.wait i (by rw [hlen]; omega)
    have : ((f.pages.foldl addPage { s with data := s.data ++ f.buffers.flatten }).pend.filter
        (fun p => p.1 != s.table.length)).filter (fun p => p.1 == i) =
        (f.pages.foldl addPage { s with data := s.data ++ f.buffers.flatten }).pend.filter (fun p => p.1 == i) := by
      rw [List.filter_filter]
      refine List.filter_congr (fun x _ => ?_)
      by_cases hx : x.1 = i
      · have : x.1 ≠ s.table.length := by omega
        simp [hx]
        omega
      · simp [hx]
    simp only [addCol]
    rw [this]
    exact hw
  · intro x hx
    simp only [addCol, List.length_append, List.length_singleton, hlen] at hx ⊢
    obtain ⟨h1, h2⟩ := hne x hx
    have := k1.early x h1
    rw [hlen] at this
    omega
  · intro i c f' hc hf
    simp only [addCol] at hc
    rw [List.getElem?_append] at hc
    split at hc
    · rename_i hi
      have hi' : i < fs.length := by rw [← h.num, ← hlen]; exact hi
      rw [List.getElem?_append_left hi'] at hf
      exact k1.fin i c f' hc hf
    · rename_i hi
      have : i = s.table.length := by
        have := (List.getElem?_eq_some_iff.mp hc).1
        simp only [List.length_singleton] at this
        omega
      subst this
      rw [hlen, Nat.sub_self] at hc
      simp only [List.getElem?_cons_zero, Option.some.injEq] at hc
      subst hc
      rw [h.num, List.getElem?_append_right (Nat.le_refl _), Nat.sub_self] at hf
      simp only [List.getElem?_cons_zero, Option.some.injEq] at hf
      subst hf
      exact ⟨rfl, hb⟩
  · simp only [addCol]
    rw [k3, List.append_assoc]
  · intro x hx
    obtain ⟨h1, h2⟩ := hne x hx
    exact ⟨k4 x h1, h2⟩

/-- The pages of a column are of this or a later column of the field. -/
def ColsFit (lo hi : Nat) : List (FinCol A S C) → Prop
  | [] => True
  | f :: fs => (∀ p ∈ f.pages, lo ≤ p.col ∧ p.col < hi) ∧ ColsFit (lo + 1) hi fs

theorem addCols_inv (hi : Nat) (cs : List (FinCol A S C)) : ∀ {s : Mem A S C} {ps : List (EncPage A S)}
    {fs : List (FinCol A S C)}, MInv s ps fs → ColsFit s.table.length hi cs → (∀ x ∈ s.pend, x.1 < hi) →
    MInv (cs.foldl addCol s) (ps ++ cs.flatMap FinCol.pages) (fs ++ cs) ∧ (∃ y, (cs.foldl addCol s).data = s.data ++ y) ∧
      ∀ x ∈ (cs.foldl addCol s).pend, x.1 < hi := by
  induction cs with
  | nil => intro s ps fs h _ hx; exact ⟨by simpa using h, ⟨[], by simp⟩, hx⟩
  | cons f cs ih =>
    intro s ps fs h hf hx
    obtain ⟨k1, ⟨y1, k2⟩, k3⟩ := addCol_inv h f (fun p hp => (hf.1 p hp).1)
    have hl : (addCol s f).table.length = s.table.length + 1 := by
      rw [k1.num, List.length_append, h.num]
      rfl
    obtain ⟨j1, ⟨y2, j2⟩, j3⟩ := ih k1 (by rw [hl]; exact hf.2) (fun x hx' => by
      rcases (k3 x hx').1 with h' | ⟨q, hq, h'⟩
      · exact hx x h'
      · rw [h']
        exact (hf.1 q hq).2)
    refine ⟨by simpa [List.flatMap_cons] using j1, ⟨y1 ++ y2, by rw [List.foldl_cons, j2, k2, List.append_assoc]⟩, j3⟩

/-- The pages of a field are of columns of the field, and of columns that are not done. -/
def Fits : Nat → List (MemGroup A S C) → Prop
  | _, [] => True
  | o, g :: gs => (∀ p ∈ g.pages, o ≤ p.col ∧ p.col < o + g.cols.length) ∧ ColsFit o (o + g.cols.length) g.cols ∧
      Fits (o + g.cols.length) gs

def MemGroup.all (g : MemGroup A S C) : List (EncPage A S) := g.pages ++ g.cols.flatMap FinCol.pages

theorem addGroups_inv (gs : List (MemGroup A S C)) : ∀ {s : Mem A S C} {ps : List (EncPage A S)}
    {fs : List (FinCol A S C)}, MInv s ps fs → s.pend = [] → Fits s.table.length gs →
    ∃ s', MInv s' (ps ++ gs.flatMap MemGroup.all) (fs ++ gs.flatMap MemGroup.cols) ∧
      s'.data = (gs.foldl addGroup s).data ∧ s'.table = (gs.foldl addGroup s).table ∧
      ∃ y, (gs.foldl addGroup s).data = s.data ++ y := by
  induction gs with
  | nil => intro s ps fs h _ _; exact ⟨s, by simpa using h, rfl, rfl, [], by simp⟩
  | cons g gs ih =>
    intro s ps fs h hp hf
    obtain ⟨k1, k2, ⟨y1, k3⟩, k4⟩ := addPages_inv g.pages (h.more g.ext.flatten) (fun q hq => (hf.1 q hq).1)
    have hs : { s with data := s.data ++ g.ext.flatten, pend := [] } = { s with data := s.data ++ g.ext.flatten } := by
      rw [← hp]
    obtain ⟨j1, ⟨y2, j2⟩, j3⟩ := addCols_inv (s.table.length + g.cols.length) g.cols (k1.more g.ext2.flatten)
      (by
        show ColsFit (g.pages.foldl addPage { s with data := s.data ++ g.ext.flatten }).table.length _ _
        rw [k2]
        exact hf.2.1)
      (fun x hx => by
        rcases k4 x hx with h' | ⟨q, hq, h'⟩
        · rw [show ({ s with data := s.data ++ g.ext.flatten } : Mem A S C).pend = [] from hp] at h'
          cases h'
        · rw [h']
          exact (hf.1 q hq).2)
    have hg : addGroup s g = g.cols.foldl addCol { (g.pages.foldl addPage { s with data := s.data ++ g.ext.flatten }) with
        data := (g.pages.foldl addPage { s with data := s.data ++ g.ext.flatten }).data ++ g.ext2.flatten } := by
      simp only [addGroup, hs]
    rw [← hg] at j1 j2 j3
    have hl : (addGroup s g).table.length = s.table.length + g.cols.length := by
      rw [j1.num, List.length_append, h.num]
    have hempty : (addGroup s g).pend = [] := by
      cases hpe : (addGroup s g).pend with
      | nil => rfl
      | cons x l =>
        have h1 := j1.early x (by rw [hpe]; exact List.mem_cons_self)
        have h2 := j3 x (by rw [hpe]; exact List.mem_cons_self)
        omega
    obtain ⟨s', i1, i2, i3, y3, i4⟩ := ih j1 hempty (by rw [hl]; exact hf.2.2)
    refine ⟨s', by simpa [List.flatMap_cons, MemGroup.all] using i1, i2, i3, g.ext.flatten ++ (y1 ++ (g.ext2.flatten ++
      (y2 ++ y3))), ?_⟩
    rw [List.foldl_cons, i4, j2]
    simp only
    rw [k3]
    simp only [List.append_assoc]

theorem MInv.empty : MInv (⟨[], [], []⟩ : Mem A S C) [] [] where
  num := rfl
  done := by intro i c h; simp at h
  wait := by intro i _; exact .nil
  early := by intro p hp; cases hp
  fin := by intro i c f h; simp at h

/-! ### To bytes and back -/

theorem toMeta_info (i : Nat) (c : ColInfo A S C) (hk : ∀ p ∈ c.pages, Kind .v20 p.enc) :
    colInfo .v20 i c.toMeta = .ok { c with index := i } := by
  obtain ⟨j, pages, bufs, e⟩ := c
  rw [colInfo_ok .v20 i _ e rfl]
  · have h1 : ∀ (l : List (Nat × Nat)), (l.map (·.1)).zip (l.map (·.2)) = l := by
      intro l
      induction l with
      | nil => rfl
      | cons x l ih => simp [ih]
    simp only [ColInfo.toMeta, List.map_map, h1]
    congr 2
    refine (List.map_congr_left (g := id) ?_).trans (by simp)
    intro p _
    simp only [Function.comp, Page.info, h1, id]
  · intro p hp
    simp only [ColInfo.toMeta, List.mem_map] at hp
    obtain ⟨q, hq, rfl⟩ := hp
    exact hk q hq
  · intro h; cases h

theorem toMeta_infos (t : List (ColInfo A S C)) : ∀ (s : Nat), (∀ c ∈ t, ∀ p ∈ c.pages, Kind .v20 p.enc) →
    (∀ i c, t[i]? = some c → c.index = s + i) → colInfos .v20 s (t.map ColInfo.toMeta) = .ok t := by
  induction t with
  | nil => intro s _ _; rfl
  | cons c t ih =>
    intro s hk hi
    rw [List.map_cons, colInfos, toMeta_info s c (hk c List.mem_cons_self)]
    simp only
    rw [ih (s + 1) (fun x hx => hk x (List.mem_cons_of_mem _ hx)) (fun i x hx => by
      rw [hi (i + 1) x (by simpa using hx)]
      omega)]
    have := hi 0 c rfl
    simp only [Except.map, Except.ok.injEq, List.cons.injEq, and_true]
    obtain ⟨j, ps, bs, e⟩ := c
    simp only at this
    simp [this]

/-- The parts of the bytes of a batch. -/
theorem concat_parts (cd : Codec (T × Nat)) (cm : Codec (ColMeta A S C)) (hcm : ∀ m, cm.dec (cm.enc m) = some m)
    (ws : Bool) (b : EncBatch T A S C) (hlen : (concatFooter cd cm ws b).length < 2 ^ 64) (hcols : b.table.length ≤ 2 ^ 28) :
    ∃ (cms cmo gbo : Nat) (mb : Bytes) (gbos : List (Nat × Nat)),
      gbos = (if ws then [(b.data.length, (cd.enc (b.sch, b.rows)).length)] else []) ∧
      decodeFooter (concatFooter cd cm ws b) = .ok ⟨cms, cmo, gbo, gbos.length, b.table.length, 2, 0⟩ ∧
      slice (concatFooter cd cm ws b) cms gbo = .ok mb ∧
      colMetas cm mb ⟨cms, cmo, gbo, gbos.length, b.table.length, 2, 0⟩ = .ok (b.table.map ColInfo.toMeta) ∧
      (∃ r, slice (concatFooter cd cm ws b) gbo (concatFooter cd cm ws b).length = .ok (table gbos ++ r)) ∧
      (ws = true → slice (concatFooter cd cm ws b) b.data.length (b.data.length + (cd.enc (b.sch, b.rows)).length) =
        .ok (cd.enc (b.sch, b.rows))) ∧ b.data.length < 2 ^ 64 ∧ (cd.enc (b.sch, b.rows)).length < 2 ^ 64 + (if ws then 0 else
          (cd.enc (b.sch, b.rows)).length) ∧ ∃ y, concatFooter cd cm ws b = b.data ++ y := by
  let desc := if ws then cd.enc (b.sch, b.rows) else []
  let gbos := if ws then [(b.data.length, desc.length)] else []
  let mm := layMetas cm (b.data ++ desc).length (b.table.map ColInfo.toMeta)
  let cms := (b.data ++ desc).length
  let cmo := cms + mm.2.length
  let gbo := cmo + (table mm.1).length
  obtain ⟨h1, h2, h3⟩ := layMetas_spec cm (b.data ++ desc).length (b.table.map ColInfo.toMeta)
  have hfile : concatFooter cd cm ws b = b.data ++ desc ++ (mm.2 ++ table mm.1) ++ (table gbos ++
      footer cms cmo gbo gbos.length b.table.length 2 0) := by
    unfold concatFooter
    simp only [mm, gbos, desc, cms, cmo, gbo, List.length_append, List.append_assoc, Nat.add_assoc]
  have hcl : (table mm.1).length = 16 * b.table.length := by rw [table_length, h1, List.length_map]
  have hcmo : cmo = cms + mm.2.length := rfl
  have hgbo : gbo = cmo + (table mm.1).length := rfl
  have hcms : cms = b.data.length + desc.length := List.length_append
  have hgl : gbos.length ≤ 1 := by
    simp only [gbos]
    split <;> simp
  have hl : (concatFooter cd cm ws b).length = gbo + 16 * gbos.length + 40 := by
    rw [hfile]
    simp only [List.length_append, footer_length, table_length gbos]
    simp only [cms, cmo, gbo, List.length_append]
    omega
  have hg : gbos = (if ws then [(b.data.length, (cd.enc (b.sch, b.rows)).length)] else []) := by
    simp only [gbos, desc]
    cases ws <;> rfl
  refine ⟨cms, cmo, gbo, mm.2 ++ table mm.1, gbos, hg, ?_, ?_, ?_, ⟨footer cms cmo gbo gbos.length b.table.length 2 0, ?_⟩,
    ?_, by omega, ?_, ?_⟩
  · rw [hfile, ← List.append_assoc _ (table gbos)]
    refine decodeFooter_footer _ _ _ _ _ _ _ _ ?_ ?_ ?_ ?_ ?_ (by decide) (by decide) (by decide) <;> omega
  · unfold slice
    rw [if_pos ⟨by omega, by omega⟩, hfile, List.append_assoc, List.drop_left, List.take_left' (by
      rw [List.length_append]
      omega)]
  · refine colMetas_spec cm hcm _ cms _ (by simp) rfl (by rw [List.length_map]; exact hcols) ?_
    show cms + mm.2.length < 2 ^ 64
    omega
  · unfold slice
    rw [if_pos ⟨by omega, Nat.le_refl _⟩, hfile, List.drop_left' (by simp only [List.length_append]; omega),
      List.take_of_length_le]
    simp only [List.length_append]
    omega
  · intro hws
    have hd : desc = cd.enc (b.sch, b.rows) := by simp only [desc, hws, if_true]
    unfold slice
    rw [if_pos ⟨Nat.le_add_right _ _, by rw [← hd]; omega⟩, hfile, Nat.add_sub_cancel_left]
    simp only [List.append_assoc]
    rw [List.drop_left, hd, List.take_left]
  · cases ws with
    | false => simp
    | true =>
      have hd : desc = cd.enc (b.sch, b.rows) := rfl
      simp only [if_true]
      rw [← hd]
      omega
  · rw [hfile]
    simp only [List.append_assoc]
    exact ⟨_, rfl⟩

end Verif.File
