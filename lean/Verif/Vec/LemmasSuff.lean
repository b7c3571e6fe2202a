import Verif.Vec.Spec
namespace Verif.Vec

/-- `u` is enough of `cands` to find its `k` nearest. -/
def Suff (k : Nat) (u cands : List (Addr × Nat)) : Prop :=
  ∃ rest, (u ++ rest).Perm cands ∧ ∀ y ∈ rest, k ≤ (u.filter (fun x => decide (x.2 ≤ y.2))).length

theorem Suff.refl (k : Nat) (u : List (Addr × Nat)) : Suff k u u := ⟨[], by simp, by intro y hy; cases hy⟩

theorem Suff.perm {k : Nat} {u c c' : List (Addr × Nat)} (h : Suff k u c) (hp : c.Perm c') : Suff k u c' := by
  obtain ⟨rest, h1, h2⟩ := h
  exact ⟨rest, h1.trans hp, h2⟩

theorem Suff.mono {k k' : Nat} {u c : List (Addr × Nat)} (h : Suff k u c) (hk : k' ≤ k) : Suff k' u c := by
  obtain ⟨rest, h1, h2⟩ := h
  exact ⟨rest, h1, fun y hy => Nat.le_trans hk (h2 y hy)⟩

theorem Suff.append {k : Nat} {u1 c1 u2 c2 : List (Addr × Nat)} (h1 : Suff k u1 c1) (h2 : Suff k u2 c2) : Suff k (u1 ++ u2) (c1 ++ c2) := by
  obtain ⟨r1, a1, b1⟩ := h1
  obtain ⟨r2, a2, b2⟩ := h2
  refine ⟨r1 ++ r2, ?_, ?_⟩
  · refine List.Perm.trans ?_ (a1.append a2)
    rw [List.append_assoc, List.append_assoc]
    refine List.Perm.append_left _ ?_
    rw [← List.append_assoc, ← List.append_assoc]
    exact List.Perm.append_right _ List.perm_append_comm
  · intro y hy
    rw [List.filter_append, List.length_append]
    rcases List.mem_append.1 hy with hy | hy
    · have := b1 y hy; omega
    · have := b2 y hy; omega

theorem filter_le_mono (u : List (Addr × Nat)) {a b : Nat} (h : a ≤ b) :
    (u.filter (fun x => decide (x.2 ≤ a))).length ≤ (u.filter (fun x => decide (x.2 ≤ b))).length := by
  rw [← List.countP_eq_length_filter, ← List.countP_eq_length_filter]
  apply List.countP_mono_left
  intro x _ hx
  simp only [decide_eq_true_eq] at hx ⊢
  omega

theorem Suff.trans {k : Nat} {w u c : List (Addr × Nat)} (h : Suff k w u) (h' : Suff k u c) : Suff k w c := by
  obtain ⟨r1, a1, b1⟩ := h
  obtain ⟨r2, a2, b2⟩ := h'
  refine ⟨r1 ++ r2, ?_, ?_⟩
  · rw [← List.append_assoc]
    exact (List.Perm.append_right _ a1).trans a2
  · intro y hy
    rcases List.mem_append.1 hy with hy | hy
    · exact b1 y hy
    · have hb := b2 y hy
      rw [← (a1.filter (fun x => decide (x.2 ≤ y.2))).length_eq, List.filter_append, List.length_append] at hb
      by_cases hz : ∃ z ∈ r1, z.2 ≤ y.2
      · obtain ⟨z, hz, hzy⟩ := hz
        exact Nat.le_trans (b1 z hz) (filter_le_mono w hzy)
      · have : r1.filter (fun x => decide (x.2 ≤ y.2)) = [] := by
          rw [List.filter_eq_nil_iff]
          intro z hz' hle
          exact hz ⟨z, hz', by simpa using hle⟩
        rw [this] at hb
        simpa using hb

theorem Suff.sub {k : Nat} {u c : List (Addr × Nat)} (h : Suff k u c) {x : Addr × Nat} (hx : x ∈ u) : x ∈ c := by
  obtain ⟨rest, h1, _⟩ := h
  exact h1.mem_iff.1 (List.mem_append_left _ hx)

theorem Suff.nodup {k : Nat} {u c : List (Addr × Nat)} (h : Suff k u c) (hc : (c.map Prod.fst).Nodup) : (u.map Prod.fst).Nodup := by
  obtain ⟨rest, h1, _⟩ := h
  have := ((h1.map Prod.fst).nodup_iff).2 hc
  rw [List.map_append, List.nodup_append] at this
  exact this.1

/-- The first `k` of a sorted list. -/
theorem Suff.take {k : Nat} {l c : List (Addr × Nat)} (hs : l.Pairwise (fun a b => a.2 ≤ b.2)) (hp : l.Perm c) : Suff k (l.take k) c := by
  refine ⟨l.drop k, by rw [List.take_append_drop]; exact hp, ?_⟩
  intro y hy
  have hlen : (l.take k).length = k := by
    rw [List.length_take]
    have : 0 < (l.drop k).length := List.length_pos_of_mem hy
    rw [List.length_drop] at this
    omega
  have hall : (l.take k).filter (fun x => decide (x.2 ≤ y.2)) = l.take k := by
    rw [List.filter_eq_self]
    intro x hx
    rw [← List.take_append_drop k l, List.pairwise_append] at hs
    simpa using hs.2.2 x hx y hy
  rw [hall, hlen]
  exact Nat.le_refl _

theorem Suff.nearest {k : Nat} {l u c : List (Addr × Nat)} (hs : l.Pairwise (fun a b => a.2 ≤ b.2)) (hp : l.Perm u) (h : Suff k u c) :
    Nearest k c (l.take k) := by
  obtain ⟨rest, h1, h2⟩ := h
  have hs' := hs
  rw [← List.take_append_drop k l, List.pairwise_append] at hs'
  refine ⟨?_, ?_, l.drop k ++ rest, ?_, ?_⟩
  · rw [List.pairwise_map]
    exact hs'.1
  · rw [List.length_take, hp.length_eq, ← h1.length_eq, List.length_append]
    cases hr : rest with
    | nil => simp
    | cons y ys =>
      have := h2 y (by rw [hr]; exact List.mem_cons_self)
      have := List.length_filter_le (fun x => decide (x.2 ≤ y.2)) u
      omega
  · rw [← List.append_assoc, List.take_append_drop]
    exact (List.Perm.append_right _ hp).trans h1
  · intro x hx y hy
    rcases List.mem_append.1 hy with hy | hy
    · exact hs'.2.2 x hx y hy
    · have hk := h2 y hy
      rw [← (hp.filter (fun x => decide (x.2 ≤ y.2))).length_eq] at hk
      rcases Nat.lt_or_ge y.2 x.2 with hlt | hge
      · exfalso
        rw [← List.take_append_drop k l, List.filter_append, List.length_append] at hk
        have h0 : (l.drop k).filter (fun x => decide (x.2 ≤ y.2)) = [] := by
          rw [List.filter_eq_nil_iff]
          intro z hz hle
          have := hs'.2.2 x hx z hz
          simp only [decide_eq_true_eq] at hle
          omega
        rw [h0, List.length_nil, Nat.add_zero] at hk
        have hlt' : ((l.take k).filter (fun x => decide (x.2 ≤ y.2))).length < (l.take k).length := by
          rw [List.length_filter_lt_length_iff_exists]
          exact ⟨x, hx, by simp only [decide_eq_true_eq]; omega⟩
        have := List.length_take_le k l
        omega
      · exact hge

/-- What the nearest rows are does not depend on the order of the candidates. -/
theorem Nearest.perm {k : Nat} {c c' r : List (Addr × Nat)} (h : Nearest k c r) (hp : c.Perm c') : Nearest k c' r := by
  obtain ⟨h1, h2, rest, h3, h4⟩ := h
  exact ⟨h1, by rw [h2, hp.length_eq], rest, h3.trans hp, h4⟩

end Verif.Vec
