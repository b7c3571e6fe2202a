import Verif.Blob.Spec
import Verif.Phys.LemmasBase

/-! # Lemmas on blob columns -/
namespace Verif.Blob
open Verif.ListCol (slice)

/-! ## The values of an array, by recursion -/

def valuesGo (data : Bytes) : List Nat → List Bool → List (Option Bytes)
  | a :: b :: offs, v :: vs => (if v then some (slice data (a, b)) else none) :: valuesGo data (b :: offs) vs
  | _, _ => []

theorem valuesGo_eq (data : Bytes) : ∀ (offs : List Nat) (vs : List Bool), offs.length = vs.length + 1 →
    (List.range vs.length).map
      (fun i => if vs.getD i false then some (slice data (offs.getD i 0, offs.getD (i + 1) 0)) else none) =
    valuesGo data offs vs
  | [], _, h => by simp at h
  | [_], [], _ => rfl
  | [_], _ :: _, h => by simp at h
  | _ :: _ :: _, [], h => by simp at h
  | a :: b :: offs, v :: vs, h => by
    have ih := valuesGo_eq data (b :: offs) vs (by simpa using h)
    simp only [List.length_cons, List.range_succ_eq_map, List.map_cons, List.map_map, valuesGo]
    refine List.cons_eq_cons.2 ⟨by simp, ?_⟩
    rw [← ih]
    apply List.map_congr_left
    intro i _
    simp

theorem getD_replicate_true (n i : Nat) (h : i < n) : (List.replicate n true).getD i false = true := by
  simp [List.getD, List.getElem?_replicate, h]

/-- The validity an array stands for. -/
def BinArray.bits (a : BinArray) : List Bool := a.nulls.getD (List.replicate (a.offsets.length - 1) true)

theorem BinArray.WF.bits_length {a : BinArray} (h : a.WF) : a.offsets.length = a.bits.length + 1 := by
  have h0 : 0 < a.offsets.length := List.length_pos_iff.2 h.nonempty
  unfold BinArray.bits
  cases e : a.nulls with
  | none => simp; omega
  | some v => have := h.nulls v e; simp; omega

theorem values_eq (a : BinArray) (h : a.offsets.length = a.bits.length + 1) :
    a.values = valuesGo a.data a.offsets a.bits := by
  rw [← valuesGo_eq _ _ _ h]
  unfold BinArray.values
  have : a.offsets.length - 1 = a.bits.length := by omega
  rw [this]
  apply List.map_congr_left
  intro i hi
  have hi : i < a.bits.length := by simpa using hi
  unfold BinArray.valueAt
  have hb : a.isValid i = a.bits.getD i false := by
    unfold BinArray.isValid
    unfold BinArray.bits at hi ⊢
    cases e : a.nulls with
    | none =>
      rw [e] at hi
      simp only [Option.getD_none] at hi ⊢
      rw [getD_replicate_true _ _ (by simpa using hi)]
    | some v => simp
  rw [hb]

/-! ## Located values -/

/-- The description `d` leads to the value `v` in the file. -/
def Locates (file : Bytes) (d : Desc) : Option Bytes → Prop
  | none => d = ⟨1, 0⟩
  | some [] => d = ⟨0, 0⟩
  | some (x :: xs) => d.size = (x :: xs).length ∧ d.position + d.size ≤ file.length ∧
      slice file (d.position, d.position + d.size) = x :: xs

def LocAll (file : Bytes) : List Desc → List (Option Bytes) → Prop
  | [], [] => True
  | d :: ds, v :: vs => Locates file d v ∧ LocAll file ds vs
  | _, _ => False

theorem Locates.append {file rest : Bytes} {d : Desc} {v : Option Bytes} (h : Locates file d v) :
    Locates (file ++ rest) d v := by
  cases v with
  | none => exact h
  | some bs =>
    cases bs with
    | nil => exact h
    | cons x xs =>
      obtain ⟨h1, h2, h3⟩ := h
      refine ⟨h1, by simp; omega, ?_⟩
      rw [ListCol.slice_append_left _ _ _ h2]
      exact h3

theorem LocAll.append {file rest : Bytes} : ∀ {ds : List Desc} {vs : List (Option Bytes)}, LocAll file ds vs →
    LocAll (file ++ rest) ds vs
  | [], [], _ => trivial
  | _ :: _, _ :: _, h => ⟨h.1.append, LocAll.append h.2⟩
  | [], _ :: _, h => h.elim
  | _ :: _, [], h => h.elim

theorem LocAll.concat {file : Bytes} : ∀ {ds es : List Desc} {vs ws : List (Option Bytes)}, LocAll file ds vs →
    LocAll file es ws → LocAll file (ds ++ es) (vs ++ ws)
  | [], _, [], _, _, h => h
  | _ :: _, _, _ :: _, _, h, h2 => ⟨h.1, LocAll.concat h.2 h2⟩
  | [], _, _ :: _, _, h, _ => h.elim
  | _ :: _, _, [], _, h, _ => h.elim

theorem LocAll.length {file : Bytes} : ∀ {ds : List Desc} {vs : List (Option Bytes)}, LocAll file ds vs →
    ds.length = vs.length
  | [], [], _ => rfl
  | _ :: _, _ :: _, h => by simp [LocAll.length h.2]
  | [], _ :: _, h => h.elim
  | _ :: _, [], h => h.elim

theorem LocAll.get {file : Bytes} : ∀ {ds : List Desc} {vs : List (Option Bytes)}, LocAll file ds vs →
    ∀ (i : Nat) (d : Desc), ds[i]? = some d → ∃ v, vs[i]? = some v ∧ Locates file d v
  | [], _, _, i, d, h => by simp at h
  | _ :: _, [], h, _, _, _ => h.elim
  | e :: ds, v :: vs, h, 0, d, hd => by
    simp only [List.getElem?_cons_zero, Option.some.injEq] at hd
    subst hd
    exact ⟨v, rfl, h.1⟩
  | e :: ds, v :: vs, h, i + 1, d, hd => by
    simp only [List.getElem?_cons_succ] at hd
    obtain ⟨w, h1, h2⟩ := LocAll.get h.2 i d hd
    exact ⟨w, by simpa using h1, h2⟩

theorem LocAll.pick {file : Bytes} {ds : List Desc} {vs : List (Option Bytes)} (h : LocAll file ds vs)
    (d0 : Desc) : ∀ (is : List Nat), (∀ i ∈ is, i < vs.length) →
    LocAll file (is.map (fun i => ds.getD i d0)) (is.map (fun i => vs.getD i none))
  | [], _ => trivial
  | i :: is, hi => by
    have hl := h.length
    have hlt : i < ds.length := by have := hi i List.mem_cons_self; omega
    obtain ⟨v, h1, h2⟩ := h.get i ds[i] (by simp [hlt])
    refine ⟨?_, LocAll.pick h d0 is (fun j hj => hi j (List.mem_cons_of_mem _ hj))⟩
    have e1 : ds.getD i d0 = ds[i] := by simp [List.getD, hlt]
    have e2 : vs.getD i none = v := by simp [List.getD, h1]
    show Locates file (ds.getD i d0) (vs.getD i none)
    rw [e1, e2]
    exact h2

/-! ## Writing -/

/-- The positions handed out are where the buffers will be. -/
def Oob.Ok (file : Bytes) (o : Oob) : Prop := (o.buffers.foldl writeBuffer file).length = o.position

theorem foldl_writeBuffer (bufs : List Bytes) : ∀ file : Bytes, ∃ rest, bufs.foldl writeBuffer file = file ++ rest := by
  induction bufs with
  | nil => intro file; exact ⟨[], by simp⟩
  | cons b bufs ih =>
    intro file
    obtain ⟨rest, h⟩ := ih (writeBuffer file b)
    refine ⟨b ++ List.replicate (pad b.length) 0 ++ rest, ?_⟩
    rw [List.foldl_cons, h]
    simp [writeBuffer]

theorem add_ok {file : Bytes} {o : Oob} (h : o.Ok file) (b : Bytes) : (o.add b).2.Ok file := by
  unfold Oob.Ok at *
  simp only [Oob.add, List.foldl_append, List.foldl_cons, List.foldl_nil, writeBuffer, List.length_append,
    List.length_replicate]
  omega

theorem slice_mid (a b c : Bytes) : slice (a ++ b ++ c) (a.length, a.length + b.length) = b := by
  simp [slice]

/-- One value. -/
theorem writeBin_ok {file data : Bytes} {o : Oob} (h : o.Ok file) (a b : Nat) (v : Bool) (hb : b ≤ data.length) :
    (writeBin data a b v o).2.Ok file ∧
    (∃ new, (writeBin data a b v o).2.buffers = o.buffers ++ new) ∧
    Locates ((writeBin data a b v o).2.buffers.foldl writeBuffer file) (writeBin data a b v o).1
      (if v then some (slice data (a, b)) else none) := by
  unfold writeBin
  cases v with
  | false =>
    simp only [Bool.false_eq_true, if_false]
    exact ⟨h, ⟨[], by simp⟩, rfl⟩
  | true =>
    simp only [if_true]
    by_cases hs : b - a > 0
    · simp only [if_pos hs]
      refine ⟨add_ok h _, ⟨[slice data (a, b)], rfl⟩, ?_⟩
      have hl : (slice data (a, b)).length = b - a := ListCol.length_slice data (a, b) hb
      obtain ⟨x, xs, e⟩ : ∃ x xs, slice data (a, b) = x :: xs := by
        cases e : slice data (a, b) with
        | nil => rw [e] at hl; simp at hl; omega
        | cons x xs => exact ⟨x, xs, rfl⟩
      simp only [Oob.add, List.foldl_append, List.foldl_cons, List.foldl_nil]
      unfold Oob.Ok at h
      generalize o.buffers.foldl writeBuffer file = F at h ⊢
      rw [e] at hl ⊢
      refine ⟨hl.symm, ?_, ?_⟩
      · simp only [writeBuffer, List.length_append, List.length_replicate]; omega
      · show slice (writeBuffer F (x :: xs)) (o.position, o.position + (b - a)) = x :: xs
        unfold writeBuffer
        rw [← h, ← hl]
        exact slice_mid F (x :: xs) _
    · simp only [if_neg hs]
      refine ⟨h, ⟨[], by simp⟩, ?_⟩
      rw [Phys.slice_zero_len _ _ _ (by omega)]
      rfl

/-- What writing more values keeps. -/
structure Grows (file : Bytes) (o o' : Oob) : Prop where
  ok : o'.Ok file
  more : ∃ new, o'.buffers = o.buffers ++ new

theorem Grows.trans {file : Bytes} {a b c : Oob} (h : Grows file a b) (h2 : Grows file b c) : Grows file a c := by
  obtain ⟨n, e⟩ := h.more
  obtain ⟨m, e2⟩ := h2.more
  exact ⟨h2.ok, n ++ m, by rw [e2, e, List.append_assoc]⟩

theorem Grows.file {file : Bytes} {o o' : Oob} (h : Grows file o o') : ∃ rest,
    o'.buffers.foldl writeBuffer file = o.buffers.foldl writeBuffer file ++ rest := by
  obtain ⟨new, e⟩ := h.more
  rw [e, List.foldl_append]
  exact foldl_writeBuffer new _

theorem writeLoop_ok {file data : Bytes} : ∀ (offs : List Nat) (vs : List Bool) (o : Oob), o.Ok file →
    (∀ x ∈ offs, x ≤ data.length) →
    Grows file o (writeLoop data offs vs o).2 ∧
    LocAll ((writeLoop data offs vs o).2.buffers.foldl writeBuffer file) (writeLoop data offs vs o).1 (valuesGo data offs vs)
  | [], _, o, h, _ => ⟨⟨h, [], by simp [writeLoop]⟩, by simp [writeLoop, valuesGo, LocAll]⟩
  | [_], _, o, h, _ => ⟨⟨h, [], by simp [writeLoop]⟩, by simp [writeLoop, valuesGo, LocAll]⟩
  | _ :: _ :: _, [], o, h, _ => ⟨⟨h, [], by simp [writeLoop]⟩, by simp [writeLoop, valuesGo, LocAll]⟩
  | a :: b :: offs, v :: vs, o, h, hi => by
    obtain ⟨h1, h2, h3⟩ := writeBin_ok (data := data) h a b v (hi b (by simp))
    obtain ⟨h4, h5⟩ := writeLoop_ok (b :: offs) vs (writeBin data a b v o).2 h1
      (fun x hx => hi x (List.mem_cons_of_mem _ hx))
    refine ⟨Grows.trans ⟨h1, h2⟩ h4, ?_⟩
    obtain ⟨rest, e⟩ := h4.file
    simp only [writeLoop, valuesGo]
    refine ⟨?_, h5⟩
    rw [e]
    exact h3.append

theorem writeBins_ok {file : Bytes} (a : BinArray) (ha : a.WF) (o : Oob) (h : o.Ok file) :
    Grows file o (writeBins a o).2 ∧
    LocAll ((writeBins a o).2.buffers.foldl writeBuffer file) (writeBins a o).1 a.values := by
  rw [values_eq a ha.bits_length]
  exact writeLoop_ok a.offsets a.bits o h ha.inData

theorem encodeBatch_ok {file : Bytes} : ∀ (cols : List BinArray) (o : Oob), (∀ a ∈ cols, a.WF) → o.Ok file →
    Grows file o (encodeBatch cols o).2 ∧
    ∀ (c : Nat) (a : BinArray), cols[c]? = some a →
      LocAll ((encodeBatch cols o).2.buffers.foldl writeBuffer file) ((encodeBatch cols o).1.getD c []) a.values
  | [], o, _, h => ⟨⟨h, [], by simp [encodeBatch]⟩, by intro c a hc; simp at hc⟩
  | x :: cols, o, hw, h => by
    obtain ⟨h1, h2⟩ := writeBins_ok x (hw x List.mem_cons_self) o h
    obtain ⟨h3, h4⟩ := encodeBatch_ok cols (writeBins x o).2 (fun a ha => hw a (List.mem_cons_of_mem _ ha)) h1.ok
    refine ⟨h1.trans h3, ?_⟩
    intro c a hc
    cases c with
    | zero =>
      simp only [List.getElem?_cons_zero, Option.some.injEq] at hc
      subst hc
      obtain ⟨rest, e⟩ := h3.file
      simp only [encodeBatch, List.getD_cons_zero]
      rw [e]
      exact h2.append
    | succ c =>
      simp only [List.getElem?_cons_succ] at hc
      simp only [encodeBatch, List.getD_cons_succ]
      exact h4 c a hc

theorem writeFile_grows : ∀ (bs : List (List BinArray × Bytes)) (file : Bytes), ∃ rest, (writeFile file bs).2 = file ++ rest
  | [], file => ⟨[], by simp [writeFile]⟩
  | (cols, pages) :: bs, file => by
    obtain ⟨r1, e1⟩ := foldl_writeBuffer (encodeBatch cols ⟨file.length, []⟩).2.buffers file
    obtain ⟨r2, e2⟩ := writeFile_grows bs (writeBatch file cols pages).2
    refine ⟨r1 ++ pages ++ r2, ?_⟩
    simp only [writeFile]
    rw [e2]
    simp only [writeBatch]
    rw [e1]
    simp

theorem writeFile_ok (c : Nat) : ∀ (bs : List (List BinArray × Bytes)) (file : Bytes),
    (∀ b ∈ bs, ∀ a ∈ b.1, a.WF) → (∀ b ∈ bs, c < b.1.length) →
    LocAll (writeFile file bs).2 (columnDescs (writeFile file bs).1 c) (columnValues bs c)
  | [], _, _, _ => trivial
  | (cols, pages) :: bs, file, hw, hc => by
    have hlt : c < cols.length := hc (cols, pages) List.mem_cons_self
    obtain ⟨h1, h2⟩ := encodeBatch_ok (file := file) cols ⟨file.length, []⟩ (hw (cols, pages) List.mem_cons_self) (by
      show ([].foldl writeBuffer file).length = file.length; rfl)
    have ih := writeFile_ok c bs (writeBatch file cols pages).2 (fun b hb => hw b (List.mem_cons_of_mem _ hb))
      (fun b hb => hc b (List.mem_cons_of_mem _ hb))
    obtain ⟨rest, e⟩ := writeFile_grows bs (writeBatch file cols pages).2
    simp only [writeFile, columnDescs, columnValues, List.flatMap_cons]
    apply LocAll.concat
    · have h3 := h2 c cols[c] (by simp [hlt])
      simp only [List.getElem?_eq_getElem hlt]
      rw [e]
      simp only [writeBatch]
      exact h3.append.append
    · exact ih

/-! ## Reading -/

theorem read_located {file : Bytes} {d : Desc} {v : Option Bytes} (h : Locates file d v) :
    readRange file d.position (d.position + d.size) = some (v.getD []) ∧ (d.position != 1 || d.size != 0) = v.isSome := by
  cases v with
  | none => cases h; exact ⟨rfl, rfl⟩
  | some bs =>
    cases bs with
    | nil => cases h; exact ⟨rfl, rfl⟩
    | cons x xs =>
      obtain ⟨h1, h2, h3⟩ := h
      have : d.size ≠ 0 := by simp at h1; omega
      refine ⟨?_, ?_⟩
      · unfold readRange
        rw [if_neg (by omega), if_pos h2, h3]
        rfl
      · simp [this]

theorem reads_located {file : Bytes} : ∀ {ds : List Desc} {vs : List (Option Bytes)}, LocAll file ds vs →
    ds.mapM (fun x => readRange file x.position (x.position + x.size)) = some (vs.map (fun v => v.getD [])) ∧
    ds.map (fun x => x.position != 1 || x.size != 0) = vs.map (fun v => v.isSome)
  | [], [], _ => ⟨rfl, rfl⟩
  | d :: ds, v :: vs, h => by
    obtain ⟨h1, h2⟩ := read_located h.1
    obtain ⟨h3, h4⟩ := reads_located h.2
    constructor
    · rw [List.mapM_cons, h1, h3]; rfl
    · simp only [List.map_cons, h2, h4]
  | [], _ :: _, h => h.elim
  | _ :: _, [], h => h.elim

theorem LocAll.drop {file : Bytes} : ∀ (n : Nat) {ds : List Desc} {vs : List (Option Bytes)}, LocAll file ds vs →
    LocAll file (ds.drop n) (vs.drop n)
  | 0, _, _, h => h
  | _ + 1, [], [], _ => trivial
  | n + 1, _ :: _, _ :: _, h => LocAll.drop n h.2
  | _ + 1, [], _ :: _, h => h.elim
  | _ + 1, _ :: _, [], h => h.elim

theorem LocAll.take {file : Bytes} : ∀ (n : Nat) {ds : List Desc} {vs : List (Option Bytes)}, LocAll file ds vs →
    LocAll file (ds.take n) (vs.take n)
  | 0, _, _, _ => by simp [LocAll]
  | _ + 1, [], [], _ => trivial
  | n + 1, _ :: _, _ :: _, h => ⟨h.1, LocAll.take n h.2⟩
  | _ + 1, [], _ :: _, h => h.elim
  | _ + 1, _ :: _, [], h => h.elim

theorem drainValidity_ok : ∀ (vs : List (List Bool)) (n : Nat), n ≤ vs.flatten.length →
    ∃ rest, drainValidity vs n = some (vs.flatten.take n, rest) ∧ rest.flatten = vs.flatten.drop n
  | vs, 0, _ => ⟨vs, by cases vs <;> simp [drainValidity], by simp⟩
  | [], n + 1, h => by simp at h
  | v :: vs, n + 1, h => by
    unfold drainValidity
    simp only [List.flatten_cons, List.length_append] at h
    by_cases hl : n + 1 < v.length
    · rw [if_pos hl]
      refine ⟨v.drop (n + 1) :: vs, ?_, ?_⟩
      · rw [List.flatten_cons, List.take_append_of_le_length (by omega)]
      · rw [List.flatten_cons, List.flatten_cons, List.drop_append_of_le_length (by omega)]
    · rw [if_neg hl]
      obtain ⟨rest, h1, h2⟩ := drainValidity_ok vs (n + 1 - v.length) (by omega)
      refine ⟨rest, ?_, ?_⟩
      · rw [h1, List.flatten_cons, List.take_append, List.take_of_length_le (l := v) (by omega)]
      · rw [h2, List.flatten_cons, List.drop_append, List.drop_of_length_le (l := v) (by omega)]
        rfl

/-! ### The decoded array -/

theorem offsetsFrom_length (n : Nat) (bs : List Bytes) : (offsetsFrom n bs).length = bs.length + 1 := by
  induction bs generalizing n with
  | nil => rfl
  | cons b bs ih => simp [offsetsFrom, ih]

theorem valuesGo_decoded : ∀ (bs : List Bytes) (vs : List Bool) (pre : Bytes), bs.length = vs.length →
    valuesGo (pre ++ bs.flatten) (offsetsFrom pre.length bs) vs =
      (bs.zip vs).map (fun x => if x.2 then some x.1 else none)
  | [], [], _, _ => rfl
  | [], _ :: _, _, h => by simp at h
  | _ :: _, [], _, h => by simp at h
  | b :: bs, v :: vs, pre, h => by
    have ih := valuesGo_decoded bs vs (pre ++ b) (by simpa using h)
    rw [List.length_append, List.append_assoc] at ih
    have e : ∀ n, ∃ t, offsetsFrom n bs = n :: t := by intro n; cases bs <;> exact ⟨_, rfl⟩
    obtain ⟨t, e⟩ := e (pre.length + b.length)
    simp only [offsetsFrom, List.flatten_cons, List.zip_cons_cons, List.map_cons]
    rw [e] at ih ⊢
    simp only [valuesGo]
    rw [ih]
    have := slice_mid pre b bs.flatten
    rw [List.append_assoc] at this
    rw [this]

theorem decode_values (vals : List (Option Bytes)) :
    (decodeTask (vals.map (fun v => v.getD []))
      (if (vals.map (fun v => v.isSome)).all (fun x => x) then none else some (vals.map (fun v => v.isSome)))).values = vals := by
  have hb : (decodeTask (vals.map (fun v => v.getD []))
      (if (vals.map (fun v => v.isSome)).all (fun x => x) then none else some (vals.map (fun v => v.isSome)))).bits =
      vals.map (fun v => v.isSome) := by
    unfold decodeTask BinArray.bits
    by_cases h : (vals.map (fun v => v.isSome)).all (fun x => x) = true
    · rw [if_pos h]
      simp only [Option.getD_none, offsetsFrom_length, List.length_map, Nat.add_sub_cancel]
      symm
      apply List.eq_replicate_iff.2
      refine ⟨by simp, ?_⟩
      intro x hx
      simpa using List.all_eq_true.1 h x hx
    · rw [if_neg h]
      rfl
  rw [values_eq _ (by rw [hb]; simp [decodeTask, offsetsFrom_length]), hb]
  have := valuesGo_decoded (vals.map (fun v => v.getD [])) (vals.map (fun v => v.isSome)) [] (by simp)
  simp only [List.nil_append, List.length_nil] at this
  show valuesGo (vals.map (fun v => v.getD [])).flatten (offsetsFrom 0 (vals.map (fun v => v.getD [])))
    (vals.map (fun v => v.isSome)) = vals
  rw [this, List.zip_map', List.map_map]
  conv => rhs; rw [← List.map_id vals]
  apply List.map_congr_left
  intro v _
  cases v <;> rfl

/-! ### The decoder -/

/-- What is loaded and not yet drained. -/
structure Dec.At (d : Dec) (vals : List (Option Bytes)) : Prop where
  le : d.rowsDrained ≤ d.rowsLoaded
  max : d.rowsLoaded ≤ vals.length
  loaded : d.loaded = (slice vals (d.rowsDrained, d.rowsLoaded)).map (fun v => v.getD [])
  valid : d.validity.flatten = (slice vals (d.rowsDrained, d.rowsLoaded)).map (fun v => v.isSome)

theorem wait_ok {file : Bytes} {d : Dec} {vals : List (Option Bytes)} (hl : LocAll file d.descs vals) (h : d.At vals)
    (need : Nat) (hn : d.rowsLoaded ≤ need + 1) :
    ∃ d', wait file d need = some d' ∧ d'.descs = d.descs ∧ d'.At vals ∧ d'.rowsLoaded = min (need + 1) vals.length ∧
      d'.rowsDrained = d.rowsDrained := by
  have hlen := hl.length
  have hm := h.max
  unfold wait
  rw [hlen]
  have hs : ¬ (min (need + 1) vals.length < d.rowsLoaded) := by omega
  simp only [if_neg hs]
  have hloc : LocAll file (slice d.descs (d.rowsLoaded, min (need + 1) vals.length))
      (slice vals (d.rowsLoaded, min (need + 1) vals.length)) := (hl.drop _).take _
  obtain ⟨h1, h2⟩ := reads_located hloc
  rw [h1, h2]
  have hsp := ListCol.slice_split vals d.rowsDrained d.rowsLoaded (min (need + 1) vals.length) h.le (by omega)
  refine ⟨_, rfl, rfl, ⟨?_, ?_, ?_, ?_⟩, rfl, rfl⟩
  · show d.rowsDrained ≤ min (need + 1) vals.length
    have := h.le; omega
  · show min (need + 1) vals.length ≤ vals.length
    omega
  · show d.loaded ++ _ = _
    rw [h.loaded]
    simp only
    rw [hsp, List.map_append]
  · show (d.validity ++ [_]).flatten = _
    simp only [List.flatten_append, List.flatten_cons, List.flatten_nil, List.append_nil]
    rw [h.valid, hsp, List.map_append]

theorem drain_ok {d : Dec} {vals : List (Option Bytes)} (h : d.At vals) (n : Nat) (hn : d.rowsDrained + n ≤ d.rowsLoaded) :
    ∃ a d', drain d n = some (a, d') ∧ a.values = slice vals (d.rowsDrained, d.rowsDrained + n) ∧ d'.descs = d.descs ∧
      d'.At vals ∧ d'.rowsLoaded = d.rowsLoaded ∧ d'.rowsDrained = d.rowsDrained + n := by
  have hsl : (slice vals (d.rowsDrained, d.rowsLoaded)).length = d.rowsLoaded - d.rowsDrained :=
    ListCol.length_slice vals (d.rowsDrained, d.rowsLoaded) h.max
  have hlen : d.loaded.length = d.rowsLoaded - d.rowsDrained := by rw [h.loaded, List.length_map, hsl]
  have hsp := ListCol.slice_split vals d.rowsDrained (d.rowsDrained + n) d.rowsLoaded (by omega) hn
  have hsn : (slice vals (d.rowsDrained, d.rowsDrained + n)).length = n := by
    rw [ListCol.length_slice vals (d.rowsDrained, d.rowsDrained + n) (by have := h.max; simp only; omega)]; simp
  unfold drain
  rw [if_neg (by omega)]
  obtain ⟨rest, h1, h2⟩ := drainValidity_ok d.validity n (by rw [h.valid, List.length_map, hsl]; omega)
  rw [h1]
  have ht : d.validity.flatten.take n = (slice vals (d.rowsDrained, d.rowsDrained + n)).map (fun v => v.isSome) := by
    rw [h.valid, hsp, List.map_append, List.take_append_of_le_length (by rw [List.length_map]; omega),
      List.take_of_length_le (by rw [List.length_map]; omega)]
  have hd : d.validity.flatten.drop n = (slice vals (d.rowsDrained + n, d.rowsLoaded)).map (fun v => v.isSome) := by
    rw [h.valid, hsp, List.map_append, List.drop_append, List.drop_of_length_le (by rw [List.length_map]; omega),
      List.length_map, hsn, Nat.sub_self]
    rfl
  have ht2 : d.loaded.take n = (slice vals (d.rowsDrained, d.rowsDrained + n)).map (fun v => v.getD []) := by
    rw [h.loaded, hsp, List.map_append, List.take_append_of_le_length (by rw [List.length_map]; omega),
      List.take_of_length_le (by rw [List.length_map]; omega)]
  have hd2 : d.loaded.drop n = (slice vals (d.rowsDrained + n, d.rowsLoaded)).map (fun v => v.getD []) := by
    rw [h.loaded, hsp, List.map_append, List.drop_append, List.drop_of_length_le (by rw [List.length_map]; omega),
      List.length_map, hsn, Nat.sub_self]
    rfl
  refine ⟨_, _, rfl, ?_, rfl, ⟨hn, h.max, hd2, h2.trans hd⟩, rfl, rfl⟩
  rw [ht, ht2]
  exact decode_values _

theorem runDec_ok {file : Bytes} {vals : List (Option Bytes)} : ∀ (ss : List Step) (d : Dec), LocAll file d.descs vals →
    d.At vals → Legal vals.length d.rowsLoaded d.rowsDrained ss →
    ∃ arrays d', runDec file d ss = some (arrays, d') ∧
      arrays.flatMap BinArray.values = slice vals (d.rowsDrained, d.rowsDrained + drainedBy ss) ∧
      d.rowsDrained + drainedBy ss ≤ vals.length
  | [], d, _, h, _ => ⟨[], d, rfl, by simp [drainedBy, slice], by have := h.le; have := h.max; simp [drainedBy]; omega⟩
  | .wait need :: ss, d, hl, h, hleg => by
    obtain ⟨d', h1, h2, h3, h4, h5⟩ := wait_ok hl h need hleg.1
    obtain ⟨arrays, d'', h6, h7, h8⟩ := runDec_ok ss d' (by rw [h2]; exact hl) h3 (by rw [h4, h5]; exact hleg.2)
    rw [h5] at h7 h8
    exact ⟨arrays, d'', by simp only [runDec, h1, h6], h7, h8⟩
  | .drain n :: ss, d, hl, h, hleg => by
    obtain ⟨a, d', h1, hv, h2, h3, h4, h5⟩ := drain_ok h n hleg.1
    obtain ⟨arrays, d'', h6, h7, h8⟩ := runDec_ok ss d' (by rw [h2]; exact hl) h3 (by rw [h4, h5]; exact hleg.2)
    rw [h5] at h7 h8
    refine ⟨a :: arrays, d'', by simp only [runDec, h1, h6], ?_, ?_⟩
    · rw [List.flatMap_cons, hv, h7]
      simp only [drainedBy]
      rw [← Nat.add_assoc]
      exact (ListCol.slice_split vals _ _ _ (by omega) (by omega)).symm
    · simp only [drainedBy]; omega

end Verif.Blob
