import Verif.Optim.Model

/-! # Lemmas -/

namespace Verif.Optim

theorem pick_names (cols : List (Name × Nat)) : ∀ (es : List (Nat × Name)) (out : List (Name × Nat)), pick cols es = some out → out.map (·.1) = es.map (·.2) := by
  intro es
  induction es with
  | nil => intro out h; cases h; rfl
  | cons e es ih =>
    intro out h
    unfold pick at h
    split at h
    · cases h
      rename_i h2
      rw [List.map_cons, List.map_cons, ih _ h2]
    · exact nomatch h

theorem eval_schema (d : Data) (p : Plan) : ∀ cols, eval d p = some cols → cols.map (·.1) = schema d p := by
  induction p with
  | source cs => intro cols h; cases h; rfl
  | take b x ih =>
    intro cols h
    unfold eval at h
    split at h
    · cases h
      rename_i h1
      rw [List.map_append, ih _ h1, List.map_map]
      exact congrArg (schema d x ++ ·) (List.map_id _)
    · exact nomatch h
  | coalesce x ih => exact ih
  | keep x ih => exact ih
  | projection es x ih =>
    intro cols h
    unfold eval at h
    split at h
    · exact pick_names _ _ _ h
    · exact nomatch h

theorem newTake_schema (d : Data) (b : List Name) (x : Plan) : schema d (newTake d b x) = schema d x ++ extra d b (schema d x) := by
  unfold newTake
  split
  · rename_i h
    rw [h, List.append_nil]
  · rfl

theorem newTake_eval (d : Data) (b : List Name) (x : Plan) : eval d (newTake d b x) = eval d (.take b x) := by
  unfold newTake
  split
  · rename_i h
    conv => rhs; unfold eval
    rw [h]
    cases eval d x with
    | none => rfl
    | some cols => simp
  · rfl

theorem idxOf_pick : ∀ (cols : List (Name × Nat)) (n : Name) (v : Nat), (cols.map (·.1)).Nodup → (n, v) ∈ cols → cols[(cols.map (·.1)).idxOf n]? = some (n, v) := by
  intro cols
  induction cols with
  | nil => intro n v _ h; exact nomatch h
  | cons c cols ih =>
    intro n v hd h
    rw [List.map_cons, List.nodup_cons] at hd
    rcases List.mem_cons.mp h with h | h
    · subst h
      simp
    · have hne : c.1 ≠ n := by
        intro he
        exact hd.1 (List.mem_map.mpr ⟨(n, v), h, he.symm⟩)
      rw [List.map_cons, List.idxOf_cons]
      have : (c.1 == n) = false := by simpa using hne
      rw [this]
      simpa using ih n v hd.2 h

theorem remap_spec (new : List (Name × Nat)) (hd : (new.map (·.1)).Nodup) : ∀ (old : List (Name × Nat)), (∀ c ∈ old, c ∈ new) →
    ∃ es, remapExprs (new.map (·.1)) (old.map (·.1)) = some es ∧ es.map (·.2) = old.map (·.1) ∧ pick new es = some old := by
  intro old
  induction old with
  | nil => intro _; exact ⟨[], rfl, rfl, rfl⟩
  | cons c old ih =>
    intro h
    obtain ⟨es, h1, h2, h3⟩ := ih (fun c hc => h c (List.mem_cons_of_mem _ hc))
    have hc := h c List.mem_cons_self
    refine ⟨((new.map (·.1)).idxOf c.1, c.1) :: es, ?_, ?_, ?_⟩
    · rw [List.map_cons]
      unfold remapExprs
      rw [h1]
      simp only
      rw [if_pos (List.mem_map.mpr ⟨c, hc, rfl⟩)]
    · rw [List.map_cons, List.map_cons, h2]
    · unfold pick
      rw [h3, idxOf_pick new c.1 c.2 hd hc]

/-- As the check of the names is used: with names that do not move. -/
theorem remap_names : ∀ (new old : List Name), (∀ n ∈ old, n ∈ new) → ∃ es, remapExprs new old = some es ∧ es.map (·.2) = old := by
  intro new old
  induction old with
  | nil => intro _; exact ⟨[], rfl, rfl⟩
  | cons n old ih =>
    intro h
    obtain ⟨es, h1, h2⟩ := ih (fun n hn => h n (List.mem_cons_of_mem _ hn))
    refine ⟨(new.idxOf n, n) :: es, ?_, by rw [List.map_cons, h2]⟩
    unfold remapExprs
    rw [h1]
    simp only
    rw [if_pos (h n List.mem_cons_self)]

theorem remap_none : ∀ (new old : List Name) (n : Name), n ∈ old → n ∉ new → remapExprs new old = none := by
  intro new old
  induction old with
  | nil => intro n h; exact nomatch h
  | cons m old ih =>
    intro n h hn
    unfold remapExprs
    rcases List.mem_cons.mp h with h | h
    · subst h
      split
      · rw [if_neg hn]
      · rfl
    · rw [ih n h hn]

theorem orderDiffers_false : ∀ (old new : List Name), orderDiffers old new = false → old.length = new.length → old = new := by
  intro old
  induction old with
  | nil => intro new _ h; exact (List.length_eq_zero_iff.mp h.symm).symm
  | cons o old ih =>
    intro new h hl
    cases new with
    | nil => exact nomatch hl
    | cons n new =>
      simp only [orderDiffers, Bool.or_eq_false_iff, decide_eq_false_iff_not, Decidable.not_not] at h
      rw [h.1, ih new h.2 (by simpa using hl)]

theorem mem_extra (d : Data) (p s : List Name) (n : Name) : n ∈ extra d p s ↔ n ∈ d.names ∧ n ∈ p ∧ n ∉ s := by
  unfold extra
  simp

theorem length_split (l : List Name) (f g h : Name → Bool) (h1 : ∀ n ∈ l, f n = (g n || h n)) (h2 : ∀ n ∈ l, ¬ (g n = true ∧ h n = true)) :
    (l.filter f).length = (l.filter g).length + (l.filter h).length := by
  induction l with
  | nil => rfl
  | cons n l ih =>
    have ih := ih (fun n hn => h1 n (List.mem_cons_of_mem _ hn)) (fun n hn => h2 n (List.mem_cons_of_mem _ hn))
    have e1 := h1 n List.mem_cons_self
    have e2 := h2 n List.mem_cons_self
    simp only [List.filter_cons]
    cases hg : g n <;> cases hh : h n <;> rw [hg, hh] at e1 e2 <;> simp_all <;> omega

/-- As many columns come from two takes as from one, if the outer one asks for all that the inner one reads. -/
theorem length_takes (d : Data) (a b s : List Name) (hab : ∀ n ∈ a, n ∈ d.names → n ∈ s ∨ n ∈ b) :
    (extra d b s).length = (extra d a s).length + (extra d b (s ++ extra d a s)).length := by
  apply length_split
  · intro n hn
    have h3 := mem_extra d a s n
    have := hab n
    by_cases ha : n ∈ a <;> by_cases hb : n ∈ b <;> by_cases hs : n ∈ s <;> simp_all
  · intro n hn
    have h3 := mem_extra d a s n
    by_cases ha : n ∈ a <;> by_cases hb : n ∈ b <;> by_cases hs : n ∈ s <;> simp_all

end Verif.Optim
