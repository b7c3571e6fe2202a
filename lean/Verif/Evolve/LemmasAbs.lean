import Verif.Evolve.LemmasRead2
namespace Verif.Evolve

/-! ### The table of a dataset -/

/-- The cells of a field in all fragments, without deleted rows. -/
def absVals (frags : List Frag) (i : Int) : List Cell := frags.flatMap (fun fr => pickVals (alive fr.phys fr.del) (fr.colVals i))

def absN (frags : List Frag) : Nat := (frags.map (fun fr => (alive fr.phys fr.del).length)).sum

def absCol (frags : List Frag) (a : Attr) : Col := a.col (absVals frags a.id)

def Ds.table (d : Ds) : Data := ⟨absN d.frags, d.schema.map (absCol d.frags)⟩

structure Inv (d : Ds) : Prop where
  schema : SchemaOk d.schema
  frags : ∀ fr ∈ d.frags, FragOk d.legacy d.schema fr
  empty : d.schema = .nil → d.frags = []

theorem catCols_map {α : Type} (f g : α → Col) (p : Tr α) : catCols (p.map f) (p.map g) = p.map (fun a => { f a with vals := (f a).vals ++ (g a).vals }) := by
  induction p with
  | nil => rfl
  | cons a k r ih1 ih2 => simp [Tr.map, catCols, ih1, ih2]

theorem col_append (a : Attr) (v w : List Cell) : { a.col v with vals := (a.col v).vals ++ (a.col w).vals } = a.col (v ++ w) := by
  unfold Attr.col
  by_cases h : a.kind = .struct <;> simp [h]

theorem readFrags_ok {lg : Bool} {s p : Tr Attr} (hs : SchemaOk s) (hp : Sub p s) (hd : Distinct Attr.name p) :
    ∀ {frags : List Frag}, (∀ fr ∈ frags, FragOk lg s fr) → readFrags s p frags = some ⟨absN frags, p.map (absCol frags)⟩
  | [], _ => rfl
  | fr :: frags, h => by
    unfold readFrags
    rw [readFrag_ok hs (h fr (by simp)) hp hd false (by simp), readFrags_ok hs hp hd (fun g hg => h g (by simp [hg]))]
    simp only [Option.some.injEq, Data.mk.injEq]
    constructor
    · simp [absN]
    · rw [catCols_map]
      apply Tr.map_congr
      intro a _
      unfold L absCol
      rw [col_append]
      simp [absVals]

theorem scan_ok {d : Ds} (h : Inv d) : d.scan = some d.table :=
  readFrags_ok h.schema (Sub.refl h.schema) h.schema.distinct h.frags

theorem absVals_append (f g : List Frag) (i : Int) : absVals (f ++ g) i = absVals f i ++ absVals g i := by simp [absVals]

theorem absN_append (f g : List Frag) : absN (f ++ g) = absN f + absN g := by simp [absN]

theorem absVals_length (frags : List Frag) (i : Int) : (absVals frags i).length = absN frags := by
  simp [absVals, absN, List.length_flatMap, pickVals]

/-! ### Deleted rows -/

theorem alive_succ (n : Nat) (del : List Nat) : alive (n + 1) del = alive n del ++ (if del.contains n then [] else [n]) := by
  unfold alive
  rw [List.range_succ, List.filter_append]
  congr 1
  simp only [List.filter_cons, List.filter_nil]
  cases del.contains n <;> rfl

theorem filter_lt_succ (del : List Nat) (h : del.Nodup) (n : Nat) :
    (del.filter (fun j => decide (j < n + 1))).length = (del.filter (fun j => decide (j < n))).length + (if del.contains n then 1 else 0) := by
  induction del with
  | nil => rfl
  | cons a l ih =>
    rw [List.nodup_cons] at h
    have ih := ih h.2
    simp only [List.filter_cons, List.contains_cons]
    by_cases h1 : a < n
    · have h2 : a < n + 1 := by omega
      have h3 : (n == a) = false := by simp; omega
      simp only [h1, h2, decide_true, if_true, List.length_cons, ih, h3, Bool.false_or]
      omega
    · by_cases h2 : a = n
      · subst h2
        have h3 : l.contains a = false := by
          rw [Bool.eq_false_iff, ne_eq, List.contains_iff_mem]
          exact h.1
        simp only [h1, decide_false, Bool.false_eq_true, if_false, Nat.lt_succ_self, decide_true, if_true, List.length_cons, ih, h3, beq_self_eq_true, Bool.true_or]
      · have h4 : ¬ a < n + 1 := by omega
        have h3 : (n == a) = false := by simp; omega
        simp only [h1, h4, decide_false, Bool.false_eq_true, if_false, ih, h3, Bool.false_or]

theorem alive_length_lt (del : List Nat) (h : del.Nodup) (n : Nat) : (alive n del).length + (del.filter (fun j => decide (j < n))).length = n := by
  induction n with
  | zero => simp [alive]
  | succ n ih =>
    rw [alive_succ, List.length_append, filter_lt_succ del h]
    split
    · simp; omega
    · simp; omega

theorem alive_length {del : List Nat} (h : del.Nodup) {n : Nat} (hl : ∀ i ∈ del, i < n) : (alive n del).length + del.length = n := by
  have := alive_length_lt del h n
  rw [List.filter_eq_self.2 (fun i hi => by simpa using hl i hi)] at this
  exact this

theorem alive_rank (del : List Nat) (h : del.Nodup) (n : Nat) :
    (alive n del).map (fun i => i - (del.filter (fun j => decide (j < i))).length) = List.range (alive n del).length := by
  induction n with
  | zero => rfl
  | succ n ih =>
    rw [alive_succ, List.map_append, List.length_append, ih]
    split
    · simp
    · simp only [List.map_cons, List.map_nil, List.length_cons, List.length_nil, List.range_succ, List.range_zero]
      have := alive_length_lt del h n
      congr 2
      omega

theorem alive_nil (n : Nat) : alive n [] = List.range n := by
  unfold alive
  apply List.filter_eq_self.2
  intro i _
  rfl

theorem pickVals_range {v : List Cell} {n : Nat} (h : v.length = n) : pickVals (List.range n) v = v := by
  subst h
  unfold pickVals
  apply List.ext_getElem
  · simp
  · intro i h1 h2
    simp [List.getElem?_eq_getElem h2]

theorem pickVals_pickVals {rows rows' : List Nat} {v : List Cell} (h : ∀ i ∈ rows, i < rows'.length) :
    pickVals rows (pickVals rows' v) = pickVals (rows.map (fun i => rows'.getD i 0)) v := by
  unfold pickVals
  rw [List.map_map]
  apply List.map_congr_left
  intro i hi
  have := h i hi
  simp [List.getD_eq_getElem?_getD, List.getElem?_eq_getElem, this]

/-- Where the restored rows come from. -/
def blanks (n : Nat) (del : List Nat) : List Nat :=
  (List.range n).map (fun i => if del.contains i then 0 else i - (del.filter (fun j => decide (j < i))).length)

theorem pick_blanks {del : List Nat} (h : del.Nodup) {n : Nat} {v : List Cell} (hv : v.length = (alive n del).length) :
    pickVals (alive n del) (pickVals (blanks n del) v) = v := by
  rw [pickVals_pickVals (by intro i hi; simp [blanks, alive_lt hi])]
  rw [show (alive n del).map (fun i => (blanks n del).getD i 0) =
      (alive n del).map (fun i => i - (del.filter (fun j => decide (j < i))).length) from ?_, alive_rank del h, pickVals_range hv]
  apply List.map_congr_left
  intro i hi
  have h1 := alive_lt hi
  have h2 : del.contains i = false := by
    unfold alive at hi
    simpa using (List.mem_filter.1 hi).2
  simp only [blanks, List.getD_eq_getElem?_getD, List.getElem?_map, List.getElem?_range h1, Option.map_some, Option.getD_some, h2]
  rfl

theorem blanks_lt {del : List Nat} {n m : Nat} (h : del.Nodup) (hm : m = (alive n del).length) (h0 : 0 < m) : ∀ i ∈ blanks n del, i < m := by
  intro i hi
  obtain ⟨j, hj, rfl⟩ := List.mem_map.1 hi
  split
  · exact h0
  · rename_i hc
    have hj := List.mem_range.1 hj
    have hmem : j ∈ alive n del := List.mem_filter.2 ⟨List.mem_range.2 hj, by simpa using hc⟩
    have := alive_rank del h n
    have h2 : j - (del.filter (fun i => decide (i < j))).length ∈ (alive n del).map (fun i => i - (del.filter (fun j => decide (j < i))).length) :=
      List.mem_map.2 ⟨j, hmem, rfl⟩
    rw [this] at h2
    rw [hm]
    exact List.mem_range.1 h2

end Verif.Evolve
