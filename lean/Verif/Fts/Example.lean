import Verif.Fts.SpecIndex
/-! # Full text search: a concrete history, for the examples beside the theorems -/
namespace Verif.Fts

/-- One way for the standard library to sort and to pop. -/
def stdSort (l : List It) : List It :=
  sortBy (fun it => (it.doc.map Entry.row).getD 0) (l.filter (fun it => it.doc.isSome)) ++ l.filter (fun it => it.doc.isNone)

theorem split_perm (l : List It) : (l.filter (fun it => it.doc.isSome) ++ l.filter (fun it => it.doc.isNone)).Perm l := by
  induction l with
  | nil => exact List.Perm.refl _
  | cons a l ih =>
    rw [List.filter_cons, List.filter_cons]
    cases a.doc with
    | none =>
      simp only [Option.isSome_none, Bool.false_eq_true, if_false, Option.isNone_none, if_true]
      exact List.perm_middle.trans (ih.cons a)
    | some e =>
      simp only [Option.isSome_some, if_true, Option.isNone_some, Bool.false_eq_true, if_false, List.cons_append]
      exact ih.cons a

def stdPop (l : List (Nat × Nat)) : Option ((Nat × Nat) × List (Nat × Nat)) :=
  match sortBy Prod.snd l with
  | [] => none
  | m :: l' => some (m, l')

def stdLib : Lib where
  sort := stdSort
  sort_perm l := ((sortBy_perm _ _).append_right _).trans (split_perm l)
  sort_sorted l := by
    unfold stdSort
    rw [List.pairwise_append]
    refine ⟨?_, ?_, ?_⟩
    · refine List.Pairwise.imp_of_mem ?_ (sortBy_sorted _ _)
      intro a b ha _ hab e he
      have h1 := (List.mem_filter.1 ((mem_sortBy _).1 ha)).2
      obtain ⟨e', he'⟩ := Option.isSome_iff_exists.1 h1
      refine ⟨e', he', ?_⟩
      rw [he, he'] at hab
      simpa using hab
    · rw [List.pairwise_iff_forall_sublist]
      intro a b hab e he
      have h1 := (List.mem_filter.1 (hab.subset (by simp : b ∈ [a, b]))).2
      rw [he] at h1
      cases h1
    · intro a _ b hb e he
      have h1 := (List.mem_filter.1 hb).2
      rw [he] at h1
      cases h1
  pop := stdPop
  pop_none l h := by
    unfold stdPop at h
    split at h
    · rename_i hs
      have := sortBy_perm Prod.snd l
      rw [hs] at this
      exact List.nil_perm.1 this
    · cases h
  pop_some l m l' h := by
    unfold stdPop at h
    split at h
    · cases h
    · rename_i m' l'' hs
      simp only [Option.some.injEq, Prod.mk.injEq] at h
      obtain ⟨rfl, rfl⟩ := h
      have hp := sortBy_perm Prod.snd l
      have ho := sortBy_sorted Prod.snd l
      rw [hs] at hp ho
      refine ⟨hp.symm, ?_⟩
      intro x hx
      rcases List.mem_cons.1 (hp.mem_iff.2 hx) with rfl | hx
      · exact Nat.le_refl _
      · exact (List.pairwise_cons.1 ho).1 x hx

/-- A weight like the one of BM25, in whole numbers: greater for rarer tokens and shorter documents. -/
def exWt (n total len dl f : Nat) : Nat := (n + 1 - len) * (f * 10 * (total + 1) / (f * (total + 1) + dl * n + 1)) + 1

/-- Two documents: "7 8 7" and "8 9". -/
def exDocs : List Doc := [⟨10, [(7, 0), (8, 1), (7, 2)]⟩, ⟨11, [(8, 0), (9, 1)]⟩]

/-- Two shards, documents arriving in another order, a flush in between. -/
def exSched : Sched where
  shards := 2
  hash := id
  events := fun k => if k = 0 then [.add 11 [(8, 0)], .flush [8], .add 10 [(8, 1)]]
    else if k = 1 then [.add 10 [(7, 0), (7, 2)], .add 11 [(9, 1)], .flush [9]] else []
  last := fun k => if k = 0 then [8] else if k = 1 then [7] else []
  lengths := [(11, 2), (10, 3)]
  merged := [(1, 9), (0, 8), (1, 7)]

theorem exSched_shard (t : Tok) (k : Nat) : (exSched.shard t == k + 2) = false := by
  have : exSched.shard t < 2 := Nat.mod_lt _ (by decide)
  simp only [beq_eq_false_iff_ne, ne_eq]
  omega

theorem exSched_valid : exSched.Valid true emptyIndex exDocs := by
  refine ⟨by decide, ?_, ?_, ?_, ?_⟩
  · intro k
    match k with
    | 0 => exact List.Perm.swap _ _ _
    | 1 => exact List.Perm.refl _
    | k + 2 =>
      have : messages exSched (k + 2) exDocs = [] := by
        simp only [exDocs, messages, List.filter_cons, List.filter_nil, exSched_shard]
        rfl
      rw [this]
      exact List.Perm.refl _
  · intro k
    match k with
    | 0 => exact List.Perm.refl _
    | 1 => exact List.Perm.refl _
    | k + 2 => exact List.Perm.refl _
  · exact List.Perm.swap _ _ _
  · rw [← List.isPerm_iff]
    decide

theorem exReach : Reach exWt true (update exWt true exSched emptyIndex) exDocs :=
  Reach.update (c := []) exSched exDocs Reach.new exSched_valid (by decide)

/-- Compaction: the first document gets a new row id. -/
theorem exReach2 : Reach exWt true (remap exWt [(10, some 20)] (update exWt true exSched emptyIndex)) (remapDocs [(10, some 20)] exDocs) :=
  Reach.remap _ exReach ⟨by decide, by decide, by decide⟩

theorem exWt_mono : Mono exWt := by
  intro n t t' l dl f h
  unfold exWt
  refine Nat.add_le_add_right (Nat.mul_le_mul_left _ ?_) 1
  generalize hA : f * 10 * (t + 1) / (f * (t + 1) + dl * n + 1) = q
  rw [Nat.le_div_iff_mul_le (by omega)]
  have h1 : q * (f * (t + 1) + dl * n + 1) ≤ f * 10 * (t + 1) := hA ▸ Nat.div_mul_le_self _ _
  obtain ⟨j, rfl⟩ := Nat.exists_eq_add_of_le h
  by_cases hf : f = 0
  · subst hf
    simp at h1 ⊢
    exact h1
  · have hq : q * f ≤ 10 * f := by
      have h2 : q * (f * (t + 1)) ≤ f * 10 * (t + 1) := Nat.le_trans (Nat.mul_le_mul_left q (by omega)) h1
      have h3 : (q * f) * (t + 1) ≤ (10 * f) * (t + 1) := by
        rw [Nat.mul_assoc, Nat.mul_comm 10 f]
        exact h2
      exact Nat.le_of_mul_le_mul_right h3 (by omega)
    have e1 : q * (f * (t + j + 1) + dl * n + 1) = q * (f * (t + 1) + dl * n + 1) + (q * f) * j := by
      have : f * (t + j + 1) = f * (t + 1) + f * j := by rw [← Nat.mul_add]; congr 1; omega
      rw [this]
      simp only [Nat.mul_add, Nat.mul_assoc]
      omega
    have e2 : f * 10 * (t + j + 1) = f * 10 * (t + 1) + (10 * f) * j := by
      have : t + j + 1 = (t + 1) + j := by omega
      rw [this, Nat.mul_add, Nat.mul_comm f 10]
    rw [e1, e2]
    exact Nat.add_le_add h1 (Nat.mul_le_mul_right j hq)

end Verif.Fts
