import Verif.Evolve.LemmasRows
namespace Verif.Evolve

/-! ### Deleting rows -/

theorem zipIdx_range (l : List Nat) : l.zipIdx = (List.range l.length).map (fun j => (l.getD j 0, j)) := by
  apply List.ext_getElem
  · simp
  · intro i h1 h2
    simp only [List.length_zipIdx] at h1
    simp [List.getElem?_eq_getElem h1]

theorem pick_idx (l : List Nat) (p : Nat → Bool) (v : List Cell) :
    pickVals ((l.zipIdx.filter (fun x => p x.2)).map Prod.fst) v = pickVals ((List.range l.length).filter p) (pickVals l v) := by
  rw [zipIdx_range, List.filter_map, List.map_map]
  rw [pickVals_pickVals (fun i hi => List.mem_range.1 (List.mem_filter.1 hi).1)]
  rfl

theorem filter_rest (p : Nat → Bool) : ∀ (l : List Nat) (k : Nat), l.Nodup →
    l.filter (fun i => !((l.zipIdx k).filter (fun x => p x.2)).any (fun x => x.1 == i)) = ((l.zipIdx k).filter (fun x => !p x.2)).map Prod.fst
  | [], _, _ => rfl
  | a :: l, k, h => by
    rw [List.nodup_cons] at h
    have ih := filter_rest p l (k + 1) h.2
    simp only [List.zipIdx_cons, List.filter_cons]
    have hrest : ∀ i ∈ l, (a == i) = false := by
      intro i hi
      rw [Bool.eq_false_iff]
      intro c
      rw [beq_iff_eq] at c
      exact h.1 (c ▸ hi)
    have hnot : ((l.zipIdx (k + 1)).filter (fun x => p x.2)).any (fun x => x.1 == a) = false := by
      rw [List.any_eq_false]
      intro x hx
      have hx := (List.mem_filter.1 hx).1
      have : x.1 ∈ l := by
        have := List.mem_map_of_mem (f := Prod.fst) hx
        rw [List.zipIdx_map_fst] at this
        exact this
      rw [beq_iff_eq]
      intro c
      exact h.1 (c ▸ this)
    cases hp : p k
    · simp only [Bool.false_eq_true, if_false, hnot, Bool.not_false, if_true, List.map_cons, ih]
    · simp only [if_true, List.any_cons, beq_self_eq_true, Bool.true_or, Bool.not_true, Bool.false_eq_true, if_false]
      rw [← ih]
      apply List.filter_congr
      intro i hi
      rw [hrest i hi, Bool.false_or]

theorem alive_nodup (n : Nat) (del : List Nat) : (alive n del).Nodup := List.Nodup.sublist List.filter_sublist List.nodup_range

theorem alive_more (n : Nat) (del gone : List Nat) : alive n (del ++ gone) = (alive n del).filter (fun i => !gone.contains i) := by
  unfold alive
  rw [List.filter_filter]
  apply List.filter_congr
  intro i _
  rw [List.contains_append, Bool.not_or, Bool.and_comm]

/-- The rows that stay. -/
theorem alive_delete (n : Nat) (del : List Nat) (dead : Nat → Bool) :
    alive n (del ++ ((alive n del).zipIdx.filter (fun x => dead x.2)).map Prod.fst) = ((alive n del).zipIdx.filter (fun x => !dead x.2)).map Prod.fst := by
  rw [alive_more, ← filter_rest dead (alive n del) 0 (alive_nodup n del)]
  apply List.filter_congr
  intro i _
  congr 1
  rw [Bool.eq_iff_iff, List.contains_iff_mem, List.any_eq_true, List.mem_map]
  simp only [beq_iff_eq]

/-- A fragment with other deletions. -/
theorem fragOk_del {lg : Bool} {s : Tr Attr} {fr : Frag} (h : FragOk lg s fr) {del : List Nat} (hd : del.Nodup ∧ ∀ i ∈ del, i < fr.phys) :
    FragOk lg s { fr with del := del } := ⟨h.nodup, h.rows, h.format, h.whole, h.len, h.nonnull, hd⟩

theorem delete_frag_ok {lg : Bool} {s : Tr Attr} {fr fr' : Frag} (h : FragOk lg s fr) {dead : Nat → Bool} {off : Nat} (he : deleteFrag dead off fr = some fr') :
    FragOk lg s fr' := by
  unfold deleteFrag at he
  simp only at he
  split at he
  · cases he
  · simp only [Option.some.injEq] at he
    subst he
    refine fragOk_del h ⟨?_, ?_⟩
    · rw [List.nodup_append]
      refine ⟨h.del.1, ?_, ?_⟩
      · refine List.Nodup.sublist (List.Sublist.map _ List.filter_sublist) ?_
        rw [List.zipIdx_map_fst]
        exact alive_nodup _ _
      · intro i hi j hj e
        subst e
        obtain ⟨x, hx, rfl⟩ := List.mem_map.1 hj
        have hx := (List.mem_filter.1 hx).1
        have := List.mem_map_of_mem (f := Prod.fst) hx
        rw [List.zipIdx_map_fst] at this
        have := (List.mem_filter.1 this).2
        simp at this
        exact this hi
    · intro i hi
      rcases List.mem_append.1 hi with hi | hi
      · exact h.del.2 i hi
      · obtain ⟨x, hx, rfl⟩ := List.mem_map.1 hi
        have hx := (List.mem_filter.1 hx).1
        have := List.mem_map_of_mem (f := Prod.fst) hx
        rw [List.zipIdx_map_fst] at this
        exact alive_lt this

theorem delete_frag_vals {fr : Frag} {dead : Nat → Bool} {off : Nat} (i : Int) :
    absVals (deleteFrag dead off fr).toList i = pickVals ((List.range (alive fr.phys fr.del).length).filter (fun j => !dead (off + j)))
      (pickVals (alive fr.phys fr.del) (fr.colVals i)) ∧
    absN (deleteFrag dead off fr).toList = ((List.range (alive fr.phys fr.del).length).filter (fun j => !dead (off + j))).length := by
  have h1 := alive_delete fr.phys fr.del (fun j => dead (off + j))
  have hlen : (((alive fr.phys fr.del).zipIdx.filter (fun x => !dead (off + x.2))).map Prod.fst).length =
      ((List.range (alive fr.phys fr.del).length).filter (fun j => !dead (off + j))).length := by
    rw [List.length_map]
    conv => lhs; rw [zipIdx_range, List.filter_map, List.length_map]
    rfl
  have hp := pick_idx (alive fr.phys fr.del) (fun j => !dead (off + j)) (fr.colVals i)
  unfold deleteFrag
  simp only
  split
  · rename_i hc
    simp only [beq_iff_eq] at hc
    rw [h1] at hc
    rw [← hp, ← hlen, hc]
    exact ⟨rfl, rfl⟩
  · simp only [Option.toList_some, absVals, absN, List.flatMap_cons, List.flatMap_nil, List.append_nil, List.map_cons, List.map_nil, List.sum_cons, List.sum_nil, Nat.add_zero]
    rw [h1, ← hp, ← hlen]
    exact ⟨rfl, rfl⟩

theorem deleteFrags_vals (dead : Nat → Bool) (i : Int) : ∀ (frags : List Frag) (off : Nat),
    absVals (deleteFrags dead off frags) i = pickVals ((List.range (absN frags)).filter (fun j => !dead (off + j))) (absVals frags i) ∧
    absN (deleteFrags dead off frags) = ((List.range (absN frags)).filter (fun j => !dead (off + j))).length
  | [], _ => ⟨rfl, rfl⟩
  | fr :: frags, off => by
    obtain ⟨h1, h2⟩ := delete_frag_vals (fr := fr) (dead := dead) (off := off) i
    obtain ⟨h3, h4⟩ := deleteFrags_vals dead i frags (off + (alive fr.phys fr.del).length)
    unfold deleteFrags
    rw [absVals_append, absN_append, h1, h2, h3, h4]
    have hn : absN (fr :: frags) = (alive fr.phys fr.del).length + absN frags := by simp [absN]
    have hr : (List.range (absN (fr :: frags))).filter (fun j => !dead (off + j)) =
        (List.range (alive fr.phys fr.del).length).filter (fun j => !dead (off + j)) ++
        ((List.range (absN frags)).filter (fun j => !dead (off + (alive fr.phys fr.del).length + j))).map (fun j => (alive fr.phys fr.del).length + j) := by
      rw [hn, List.range_add, List.filter_append, List.filter_map]
      congr 2
      apply List.filter_congr
      intro j _
      simp only [Function.comp, Nat.add_assoc]
    rw [hr]
    constructor
    · unfold pickVals
      rw [List.map_append, List.map_map]
      have hv : absVals (fr :: frags) i = pickVals (alive fr.phys fr.del) (fr.colVals i) ++ absVals frags i := by simp [absVals]
      rw [hv]
      have hl : (pickVals (alive fr.phys fr.del) (fr.colVals i)).length = (alive fr.phys fr.del).length := by simp [pickVals]
      congr 1
      · apply List.map_congr_left
        intro j hj
        have hj := List.mem_range.1 (List.mem_filter.1 hj).1
        rw [← hl] at hj
        rw [List.getD_eq_getElem?_getD, List.getD_eq_getElem?_getD, List.getElem?_append_left hj]
        rfl
      · apply List.map_congr_left
        intro j _
        simp only [Function.comp]
        rw [List.getD_eq_getElem?_getD, List.getD_eq_getElem?_getD, List.getElem?_append_right (by omega), hl]
        congr 2
        omega
    · rw [List.length_append, List.length_map]

theorem deleteFrags_ok {lg : Bool} {s : Tr Attr} (dead : Nat → Bool) : ∀ {frags : List Frag} {off : Nat}, (∀ fr ∈ frags, FragOk lg s fr) →
    ∀ fr ∈ deleteFrags dead off frags, FragOk lg s fr
  | [], _, _, _, h => by cases h
  | g :: frags, off, hf, fr, h => by
    unfold deleteFrags at h
    rcases List.mem_append.1 h with h | h
    · rw [Option.mem_toList] at h
      exact delete_frag_ok (hf g (by simp)) h
    · exact deleteFrags_ok dead (fun x hx => hf x (by simp [hx])) fr h

theorem delete_ok {d : Ds} (hi : Inv d) (dead : Nat → Bool) :
    Inv { d with frags := deleteFrags dead 0 d.frags } ∧
    ({ d with frags := deleteFrags dead 0 d.frags } : Ds).table = d.table.pick ((List.range d.table.n).filter (fun i => !dead i)) := by
  refine ⟨⟨hi.schema, deleteFrags_ok dead hi.frags, ?_⟩, ?_⟩
  · intro c
    simp only at c ⊢
    rw [hi.empty c]
    rfl
  · unfold Ds.table Data.pick pickCols
    have hN := (deleteFrags_vals dead 0 d.frags 0).2
    simp only [Nat.zero_add] at hN
    simp only [Data.mk.injEq, hN, true_and, Tr.map_map]
    apply Tr.map_congr
    intro a _
    have h := (deleteFrags_vals dead a.id d.frags 0).1
    simp only [Nat.zero_add] at h
    unfold absCol Attr.col
    by_cases hk : a.kind = .struct
    · simp [hk]
    · simp [hk, h]

end Verif.Evolve
