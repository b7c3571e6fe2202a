import Verif.File.LemmasBytes

/-! What the writer records about pages and buffers is where they are. -/
namespace Verif.File

variable {A S C M : Type}

/-- Two lists of the same length whose items are related. -/
inductive Both {α β : Type} (R : α → β → Prop) : List α → List β → Prop
  | nil : Both R [] []
  | cons {a b as bs} : R a b → Both R as bs → Both R (a :: as) (b :: bs)

theorem Both.imp {α β : Type} {R R' : α → β → Prop} (h : ∀ a b, R a b → R' a b) {as : List α} {bs : List β}
    (hb : Both R as bs) : Both R' as bs := by
  induction hb with
  | nil => exact .nil
  | cons h1 _ ih => exact .cons (h _ _ h1) ih

theorem Both.snoc {α β : Type} {R : α → β → Prop} {as : List α} {bs : List β} {a : α} {b : β} (hb : Both R as bs)
    (h : R a b) : Both R (as ++ [a]) (bs ++ [b]) := by
  induction hb with
  | nil => exact .cons h .nil
  | cons h1 _ ih => exact .cons h1 ih

theorem Both.exists_right {α β : Type} {R : α → β → Prop} {as : List α} {bs : List β} (h : Both R as bs) :
    ∀ a ∈ as, ∃ b ∈ bs, R a b := by
  induction h with
  | nil => intro a ha; cases ha
  | cons h1 _ ih =>
    intro a ha
    rcases List.mem_cons.mp ha with rfl | ha'
    · exact ⟨_, List.mem_cons_self, h1⟩
    · obtain ⟨b, hb, hr⟩ := ih a ha'
      exact ⟨b, List.mem_cons_of_mem _ hb, hr⟩

theorem Both.map_eq {α β γ : Type} {R : α → β → Prop} {f : α → γ} {g : β → γ} (h : ∀ a b, R a b → f a = g b) {as : List α}
    {bs : List β} (hb : Both R as bs) : as.map f = bs.map g := by
  induction hb with
  | nil => rfl
  | cons h1 _ ih => rw [List.map_cons, List.map_cons, h _ _ h1, ih]

/-- The metadata of a page says what the page is, and its buffers are where it says. -/
structure Shows (file : Bytes) (p : Page A S) (e : EncPage A S) : Prop where
  enc : p.enc = e.desc
  length : p.length = e.rows
  priority : p.priority = e.row
  bufs : (p.offsets.zip p.sizes).map (bufAt file) = e.data.map .ok

theorem Shows.append {file : Bytes} {p : Page A S} {e : EncPage A S} (h : Shows file p e) (y : Bytes) :
    Shows (file ++ y) p e := ⟨h.enc, h.length, h.priority, map_bufAt_append h.bufs y⟩

theorem layBuffers_bufs (out : Bytes) (bs : List Bytes) :
    ((layBuffers out.length bs).1.zip (bs.map List.length)).map (bufAt (out ++ (layBuffers out.length bs).2)) =
      bs.map .ok := by
  induction bs generalizing out with
  | nil => rfl
  | cons b bs ih =>
    have h := ih (out ++ padded b)
    rw [List.length_append] at h
    simp only [layBuffers, List.map_cons, List.zip_cons_cons, List.cons.injEq]
    refine ⟨?_, ?_⟩
    · have := bufAt_here out b (List.replicate (pad b.length) 72 ++ (layBuffers (out.length + (padded b).length) bs).2)
      rw [← this]
      simp [padded]
    · rw [← h, List.append_assoc]

theorem layBuffers_aligned (pos : Nat) (bs : List Bytes) (h : pos % 64 = 0) :
    (∀ o ∈ (layBuffers pos bs).1, o % 64 = 0) ∧ (layBuffers pos bs).2.length % 64 = 0 := by
  induction bs generalizing pos with
  | nil => exact ⟨fun o ho => (nomatch ho), rfl⟩
  | cons b bs ih =>
    have hb := padded_aligned b
    obtain ⟨h1, h2⟩ := ih (pos + (padded b).length) (by omega)
    simp only [layBuffers]
    refine ⟨fun o ho => ?_, ?_⟩
    · rcases List.mem_cons.mp ho with rfl | ho'
      · exact h
      · exact h1 o ho'
    · rw [List.length_append]; omega

theorem flatten_padded_aligned (bs : List Bytes) : (bs.map padded).flatten.length % 64 = 0 := by
  induction bs with
  | nil => rfl
  | cons b bs ih =>
    have hb := padded_aligned b
    rw [List.map_cons, List.flatten_cons, List.length_append]
    omega

/-- What is known about a writer after it wrote pages, global buffers and finished columns. -/
structure Inv (w : Wr A S C) (n : Nat) (ps : List (EncPage A S)) (gs : List Bytes) (fs : List (FinCol A S C)) : Prop where
  num : w.cols.length = n
  pages : ∀ (i : Nat) (c : ColMeta A S C), w.cols[i]? = some c → Both (Shows w.out) c.pages (ps.filter (fun p => p.col == i))
  globals : w.globals.map (bufAt w.out) = gs.map .ok
  gsum : (w.globals.map (·.2)).sum ≤ w.out.length
  fin : ∀ (i : Nat) (c : ColMeta A S C) (f : FinCol A S C), w.cols[i]? = some c → fs[i]? = some f → c.enc = some f.enc ∧
    ((∀ b ∈ f.buffers.dropLast, b.length % 64 = 0) → (c.offsets.zip c.sizes).map (bufAt w.out) = f.buffers.map .ok)
  rest : ∀ (i : Nat) (c : ColMeta A S C), w.cols[i]? = some c → fs.length ≤ i → c.offsets = [] ∧ c.sizes = []

theorem Inv.new (n : Nat) : Inv (Wr.new n : Wr A S C) n [] [] [] where
  num := by simp [Wr.new]
  pages := by
    intro i c h
    simp only [Wr.new, List.getElem?_replicate] at h
    split at h
    · cases h
      exact .nil
    · cases h
  globals := rfl
  gsum := Nat.zero_le _
  fin := by intro i c f _ h; simp at h
  rest := by
    intro i c h _
    simp only [Wr.new, List.getElem?_replicate] at h
    split at h
    · cases h
      exact ⟨rfl, rfl⟩
    · cases h

/-- Bytes that nothing refers to. -/
theorem Inv.more {w : Wr A S C} {n : Nat} {ps : List (EncPage A S)} {gs : List Bytes} {fs : List (FinCol A S C)}
    (h : Inv w n ps gs fs) (y : Bytes) : Inv { w with out := w.out ++ y } n ps gs fs where
  num := h.num
  pages := fun i c hc => (h.pages i c hc).imp (fun _ _ k => k.append y)
  globals := map_bufAt_append h.globals y
  gsum := by
    have := h.gsum
    simp only [List.length_append]
    omega
  fin := fun i c f hc hf => ⟨(h.fin i c f hc hf).1, fun hb => map_bufAt_append ((h.fin i c f hc hf).2 hb) y⟩
  rest := h.rest

theorem writePage_inv {w w' : Wr A S C} {n : Nat} {ps : List (EncPage A S)} {gs : List Bytes} {fs : List (FinCol A S C)}
    (h : Inv w n ps gs fs) {p : EncPage A S} (hw : writePage w p = some w') :
    Inv w' n (ps ++ [p]) gs fs ∧ ∃ y, w'.out = w.out ++ y := by
  unfold writePage at hw
  simp only at hw
  split at hw
  · cases hw
  · rename_i c hc
    cases hw
    have hm := h.more (layBuffers w.out.length p.data).2
    refine ⟨⟨?_, ?_, hm.globals, hm.gsum, ?_, ?_⟩, _, rfl⟩
    · simp [h.num]
    · intro i c' hc'
      simp only [List.getElem?_set] at hc'
      rw [List.filter_append]
      split at hc'
      · rename_i he
        subst he
        split at hc'
        · cases hc'
          have hp : [p].filter (fun q => q.col == p.col) = [p] := by simp
          rw [hp]
          refine (hm.pages p.col c hc).snoc ⟨rfl, rfl, rfl, ?_⟩
          exact layBuffers_bufs w.out p.data
        · cases hc'
      · rename_i he
        have hp : [p].filter (fun q => q.col == i) = [] := by simp [he]
        rw [hp, List.append_nil]
        exact hm.pages i c' hc'
    · intro i c' f hc' hf
      simp only [List.getElem?_set] at hc'
      split at hc'
      · rename_i he
        subst he
        split at hc'
        · cases hc'
          exact hm.fin p.col c f hc hf
        · cases hc'
      · exact hm.fin i c' f hc' hf
    · intro i c' hc' hi
      simp only [List.getElem?_set] at hc'
      split at hc'
      · rename_i he
        subst he
        split at hc'
        · cases hc'
          exact h.rest p.col c hc hi
        · cases hc'
      · exact h.rest i c' hc' hi

theorem writePages_inv {n : Nat} {gs : List Bytes} {fs : List (FinCol A S C)} (qs : List (EncPage A S)) :
    ∀ {w w' : Wr A S C} {ps : List (EncPage A S)}, Inv w n ps gs fs → writePages qs w = some w' →
      Inv w' n (ps ++ qs) gs fs ∧ ∃ y, w'.out = w.out ++ y := by
  induction qs with
  | nil =>
    intro w w' ps h hw
    cases hw
    exact ⟨by rw [List.append_nil]; exact h, [], by simp⟩
  | cons q qs ih =>
    intro w w' ps h hw
    rw [writePages, Option.bind_eq_some_iff] at hw
    obtain ⟨w1, h1, h2⟩ := hw
    obtain ⟨k1, y1, e1⟩ := writePage_inv h h1
    obtain ⟨k2, y2, e2⟩ := ih k1 h2
    refine ⟨by rw [List.append_assoc] at k2; exact k2, y1 ++ y2, by rw [e2, e1, List.append_assoc]⟩

/-- The pages that a call writes. -/
def Op.pages : Op A S → List (EncPage A S)
  | .batch n _ ps => if n = 0 then [] else ps
  | .global _ => []

/-- The global buffer that a call writes. -/
def Op.globals : Op A S → List Bytes
  | .batch _ _ _ => []
  | .global b => [b]

/-- The rows that a call writes. -/
def Op.rows : Op A S → Nat
  | .batch n _ _ => n
  | .global _ => 0

theorem writePage_same {w w' : Wr A S C} {p : EncPage A S} (hw : writePage w p = some w') :
    w'.rows = w.rows ∧ w'.globals = w.globals := by
  unfold writePage at hw
  simp only at hw
  split at hw
  · cases hw
  · cases hw; exact ⟨rfl, rfl⟩

theorem writePages_same (qs : List (EncPage A S)) : ∀ {w w' : Wr A S C}, writePages qs w = some w' →
    w'.rows = w.rows ∧ w'.globals = w.globals := by
  induction qs with
  | nil => intro w w' hw; cases hw; exact ⟨rfl, rfl⟩
  | cons q qs ih =>
    intro w w' hw
    rw [writePages, Option.bind_eq_some_iff] at hw
    obtain ⟨w1, h1, h2⟩ := hw
    obtain ⟨a, b⟩ := writePage_same h1
    obtain ⟨c, d⟩ := ih h2
    exact ⟨c.trans a, d.trans b⟩

theorem stepOp_inv {w w' : Wr A S C} {n : Nat} {ps : List (EncPage A S)} {gs : List Bytes} {fs : List (FinCol A S C)}
    (h : Inv w n ps gs fs) {o : Op A S} (hw : stepOp o w = some w') :
    Inv w' n (ps ++ o.pages) (gs ++ o.globals) fs ∧ w'.rows = w.rows + o.rows ∧ ∃ y, w'.out = w.out ++ y := by
  cases o with
  | batch k ext pages =>
    simp only [stepOp] at hw
    simp only [Op.pages, Op.globals, Op.rows, List.append_nil]
    split at hw
    · rename_i h0
      cases hw
      rw [if_pos h0, List.append_nil]
      exact ⟨h, by omega, [], by simp⟩
    · rename_i h0
      rw [if_neg h0]
      split at hw
      · split at hw
        · have hm : Inv { w with out := w.out ++ (ext.map padded).flatten, rows := w.rows + k } n ps gs fs :=
            have hx := h.more (ext.map padded).flatten
            ⟨hx.num, hx.pages, hx.globals, hx.gsum, hx.fin, hx.rest⟩
          obtain ⟨k1, y, e⟩ := writePages_inv pages hm hw
          exact ⟨k1, (writePages_same pages hw).1, _, by rw [e, List.append_assoc]⟩
        · cases hw
      · cases hw
  | global b =>
    simp only [stepOp] at hw
    cases hw
    have hm := h.more (padded b)
    simp only [Op.pages, Op.globals, Op.rows, List.append_nil]
    refine ⟨⟨hm.num, hm.pages, ?_, ?_, hm.fin, hm.rest⟩, by omega, _, rfl⟩
    · simp only [List.map_append, List.map_cons, List.map_nil]
      have hg : w.globals.map (bufAt (w.out ++ padded b)) = gs.map .ok := hm.globals
      rw [hg]
      have := bufAt_here w.out b (List.replicate (pad b.length) 72)
      rw [List.append_assoc] at this
      simp only [padded]
      rw [this]
    · have := h.gsum
      simp only [List.map_append, List.map_cons, List.map_nil, List.sum_append, List.sum_cons, List.sum_nil,
        List.length_append, padded_length]
      omega

theorem runOps_inv {n : Nat} {fs : List (FinCol A S C)} (os : List (Op A S)) :
    ∀ {w w' : Wr A S C} {ps : List (EncPage A S)} {gs : List Bytes}, Inv w n ps gs fs → runOps os w = some w' →
      Inv w' n (ps ++ os.flatMap Op.pages) (gs ++ os.flatMap Op.globals) fs ∧ w'.rows = w.rows + (os.map Op.rows).sum ∧
      ∃ y, w'.out = w.out ++ y := by
  induction os with
  | nil =>
    intro w w' ps gs h hw
    cases hw
    exact ⟨by simpa using h, by simp, [], by simp⟩
  | cons o os ih =>
    intro w w' ps gs h hw
    rw [runOps, Option.bind_eq_some_iff] at hw
    obtain ⟨w1, h1, h2⟩ := hw
    obtain ⟨k1, r1, y1, e1⟩ := stepOp_inv h h1
    obtain ⟨k2, r2, y2, e2⟩ := ih k1 h2
    refine ⟨?_, ?_, y1 ++ y2, by rw [e2, e1, List.append_assoc]⟩
    · simpa [List.flatMap_cons, List.append_assoc] using k2
    · simp only [List.map_cons, List.sum_cons]
      omega

/-! ### Finishing -/

theorem colPositions_bufs (out : Bytes) (bs : List Bytes) (h : ∀ b ∈ bs.dropLast, b.length % 64 = 0) :
    ((colPositions out.length bs).zip (bs.map List.length)).map (bufAt (out ++ (bs.map padded).flatten)) = bs.map .ok := by
  induction bs generalizing out with
  | nil => rfl
  | cons b bs ih =>
    simp only [colPositions, List.map_cons, List.zip_cons_cons, List.cons.injEq, List.flatten_cons]
    refine ⟨?_, ?_⟩
    · have := bufAt_here out b (List.replicate (pad b.length) 72 ++ (bs.map padded).flatten)
      rw [← this]
      simp [padded]
    · cases bs with
      | nil => rfl
      | cons b' bs' =>
        have hb : b.length % 64 = 0 := h b (by simp)
        have hp : padded b = b := by simp [padded, pad_zero hb]
        have := ih (out ++ b) (fun x hx => h x (by
          rw [List.dropLast_cons_of_ne_nil (by simp)]
          exact List.mem_cons_of_mem _ hx))
        rw [List.length_append] at this
        rw [hp, ← List.append_assoc]
        exact this

theorem finishCol_inv {w w' : Wr A S C} {n : Nat} {ps : List (EncPage A S)} {gs : List Bytes} {fs : List (FinCol A S C)}
    (h : Inv w n ps gs fs) {f : FinCol A S C} (hw : finishCol fs.length f w = some w') :
    Inv w' n (ps ++ f.pages) gs (fs ++ [f]) ∧ w'.rows = w.rows ∧ ∃ y, w'.out = w.out ++ y := by
  unfold finishCol at hw
  split at hw
  · cases hw
  · rename_i w1 h1
    obtain ⟨k, y, e⟩ := writePages_inv f.pages h h1
    split at hw
    · cases hw
    · rename_i c hc
      cases hw
      have hm := k.more (f.buffers.map padded).flatten
      refine ⟨⟨?_, ?_, hm.globals, hm.gsum, ?_, ?_⟩, (writePages_same f.pages h1).1, _, by rw [e, List.append_assoc]⟩
      · simp [k.num]
      · intro i c' hc'
        simp only [List.getElem?_set] at hc'
        split at hc'
        · rename_i he
          subst he
          split at hc'
          · cases hc'
            exact hm.pages _ c hc
          · cases hc'
        · exact hm.pages i c' hc'
      · intro i c' f' hc' hf
        simp only [List.getElem?_set] at hc'
        split at hc'
        · rename_i he
          subst he
          split at hc'
          · cases hc'
            simp at hf
            subst hf
            obtain ⟨r1, r2⟩ := k.rest _ c hc (Nat.le_refl _)
            refine ⟨rfl, fun hb => ?_⟩
            simp only [r1, r2, List.nil_append]
            exact colPositions_bufs w1.out f.buffers hb
          · cases hc'
        · rename_i he
          rw [List.getElem?_append] at hf
          split at hf
          · exact hm.fin i c' f' hc' hf
          · rename_i hlt
            rw [List.getElem?_singleton] at hf
            split at hf
            · omega
            · cases hf
      · intro i c' hc' hi
        rw [List.length_append] at hi
        simp only [List.length_singleton] at hi
        simp only [List.getElem?_set] at hc'
        split at hc'
        · omega
        · exact k.rest i c' hc' (by omega)

theorem finishCols_inv {n : Nat} {gs : List Bytes} (cs : List (FinCol A S C)) :
    ∀ {w w' : Wr A S C} {ps : List (EncPage A S)} {fs : List (FinCol A S C)}, Inv w n ps gs fs →
      finishCols fs.length cs w = some w' →
      Inv w' n (ps ++ cs.flatMap FinCol.pages) gs (fs ++ cs) ∧ w'.rows = w.rows ∧ ∃ y, w'.out = w.out ++ y := by
  induction cs with
  | nil =>
    intro w w' ps fs h hw
    cases hw
    exact ⟨by simpa using h, rfl, [], by simp⟩
  | cons f cs ih =>
    intro w w' ps fs h hw
    rw [finishCols, Option.bind_eq_some_iff] at hw
    obtain ⟨w1, h1, h2⟩ := hw
    obtain ⟨k1, r1, y1, e1⟩ := finishCol_inv h h1
    have hlen : fs.length + 1 = (fs ++ [f]).length := by simp
    rw [hlen] at h2
    obtain ⟨k2, r2, y2, e2⟩ := ih k1 h2
    refine ⟨?_, r2.trans r1, y1 ++ y2, by rw [e2, e1, List.append_assoc]⟩
    simpa [List.flatMap_cons, List.append_assoc] using k2

theorem finishGroups_inv {n : Nat} {gs : List Bytes} (groups : List (FinGroup A S C)) :
    ∀ {w w' : Wr A S C} {ps : List (EncPage A S)} {fs : List (FinCol A S C)}, Inv w n ps gs fs →
      finishGroups fs.length groups w = some w' →
      Inv w' n (ps ++ (groups.flatMap FinGroup.cols).flatMap FinCol.pages) gs (fs ++ groups.flatMap FinGroup.cols) ∧
        fs.length + (groups.flatMap FinGroup.cols).length = n ∧ w'.rows = w.rows ∧ ∃ y, w'.out = w.out ++ y := by
  induction groups with
  | nil =>
    intro w w' ps fs h hw
    rw [finishGroups] at hw
    split at hw
    · rename_i hl
      cases hw
      exact ⟨by simpa using h, by simp [hl, h.num], rfl, [], by simp⟩
    · cases hw
  | cons g groups ih =>
    intro w w' ps fs h hw
    rw [finishGroups, Option.bind_eq_some_iff] at hw
    obtain ⟨w1, h1, h2⟩ := hw
    obtain ⟨k1, r1, y1, e1⟩ := finishCols_inv g.cols (h.more g.ext.flatten) h1
    rw [← List.length_append] at h2
    obtain ⟨k2, l2, r2, y2, e2⟩ := ih k1 h2
    refine ⟨?_, ?_, r2.trans r1, g.ext.flatten ++ (y1 ++ y2), by rw [e2, e1]; simp⟩
    · simpa [List.flatMap_cons, List.append_assoc] using k2
    · simp only [List.length_append, List.flatMap_cons] at l2 ⊢
      omega

/-! ### Alignment -/

/-- All that was recorded is aligned, and so is the end of the file. -/
structure Al (w : Wr A S C) : Prop where
  out : w.out.length % 64 = 0
  pages : ∀ c ∈ w.cols, ∀ p ∈ c.pages, ∀ o ∈ p.offsets, o % 64 = 0
  globals : ∀ e ∈ w.globals, e.1 % 64 = 0

theorem Al.new (n : Nat) : Al (Wr.new n : Wr A S C) where
  out := rfl
  pages := by
    intro c hc p hp
    simp only [Wr.new, List.mem_replicate] at hc
    rw [hc.2] at hp
    cases hp
  globals := fun e he => nomatch he

theorem writePage_al {w w' : Wr A S C} (h : Al w) {p : EncPage A S} (hw : writePage w p = some w') : Al w' := by
  unfold writePage at hw
  simp only at hw
  split at hw
  · cases hw
  · rename_i c hc
    cases hw
    obtain ⟨h1, h2⟩ := layBuffers_aligned w.out.length p.data h.out
    have hout := h.out
    refine ⟨by rw [List.length_append]; omega, ?_, h.globals⟩
    intro c' hc' q hq
    rcases List.mem_or_eq_of_mem_set hc' with hm | rfl
    · exact h.pages c' hm q hq
    · simp only [List.mem_append, List.mem_singleton] at hq
      rcases hq with hq' | rfl
      · exact h.pages c (List.mem_of_getElem? hc) q hq'
      · exact h1

theorem writePages_al (qs : List (EncPage A S)) : ∀ {w w' : Wr A S C}, Al w → writePages qs w = some w' → Al w' := by
  induction qs with
  | nil => intro w w' h hw; cases hw; exact h
  | cons q qs ih =>
    intro w w' h hw
    rw [writePages, Option.bind_eq_some_iff] at hw
    obtain ⟨w1, h1, h2⟩ := hw
    exact ih (writePage_al h h1) h2

theorem stepOp_al {w w' : Wr A S C} (h : Al w) {o : Op A S} (hw : stepOp o w = some w') : Al w' := by
  have hout := h.out
  cases o with
  | batch k ext pages =>
    simp only [stepOp] at hw
    split at hw
    · cases hw; exact h
    · split at hw
      · split at hw
        · have := flatten_padded_aligned ext
          refine writePages_al pages ?_ hw
          exact ⟨by simp only [List.length_append]; omega, h.pages, h.globals⟩
        · cases hw
      · cases hw
  | global b =>
    simp only [stepOp] at hw
    cases hw
    have := padded_aligned b
    refine ⟨by rw [List.length_append]; omega, h.pages, ?_⟩
    intro e he
    simp only [List.mem_append, List.mem_singleton] at he
    rcases he with he' | rfl
    · exact h.globals e he'
    · exact hout

theorem runOps_al (os : List (Op A S)) : ∀ {w w' : Wr A S C}, Al w → runOps os w = some w' → Al w' := by
  induction os with
  | nil => intro w w' h hw; cases hw; exact h
  | cons o os ih =>
    intro w w' h hw
    rw [runOps, Option.bind_eq_some_iff] at hw
    obtain ⟨w1, h1, h2⟩ := hw
    exact ih (stepOp_al h h1) h2

theorem finishCol_al {i : Nat} {w w' : Wr A S C} (h : Al w) {f : FinCol A S C} (hw : finishCol i f w = some w') : Al w' := by
  unfold finishCol at hw
  split at hw
  · cases hw
  · rename_i w1 h1
    have k := writePages_al f.pages h h1
    split at hw
    · cases hw
    · rename_i c hc
      cases hw
      have h1 := k.out
      have h2 := flatten_padded_aligned f.buffers
      refine ⟨by rw [List.length_append]; omega, ?_, k.globals⟩
      intro c' hc' q hq
      rcases List.mem_or_eq_of_mem_set hc' with hm | rfl
      · exact k.pages c' hm q hq
      · exact k.pages c (List.mem_of_getElem? hc) q hq

theorem finishCols_al (cs : List (FinCol A S C)) : ∀ {i : Nat} {w w' : Wr A S C}, Al w → finishCols i cs w = some w' →
    Al w' := by
  induction cs with
  | nil => intro i w w' h hw; cases hw; exact h
  | cons f cs ih =>
    intro i w w' h hw
    rw [finishCols, Option.bind_eq_some_iff] at hw
    obtain ⟨w1, h1, h2⟩ := hw
    exact ih (finishCol_al h h1) h2

theorem finishGroups_al (groups : List (FinGroup A S C)) (hg : ∀ g ∈ groups, g.ext.flatten.length % 64 = 0) :
    ∀ {i : Nat} {w w' : Wr A S C}, Al w → finishGroups i groups w = some w' → Al w' := by
  induction groups with
  | nil =>
    intro i w w' h hw
    rw [finishGroups] at hw
    split at hw
    · cases hw; exact h
    · cases hw
  | cons g groups ih =>
    intro i w w' h hw
    rw [finishGroups, Option.bind_eq_some_iff] at hw
    obtain ⟨w1, h1, h2⟩ := hw
    refine ih (fun x hx => hg x (List.mem_cons_of_mem _ hx)) (finishCols_al g.cols ?_ h1) h2
    have := hg g List.mem_cons_self
    have := h.out
    exact ⟨by simp only [List.length_append]; omega, h.pages, h.globals⟩

end Verif.File
