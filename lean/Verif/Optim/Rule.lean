import Verif.Optim.Lemmas

/-! # What the rule keeps -/

namespace Verif.Optim

/-- The projections of the takes at the top of a plan. -/
def chain : Plan → List (List Name)
  | .take p x => p :: chain x
  | .coalesce x => chain x
  | _ => []

/-- Every take asks for what the takes directly below it ask for; names are different. -/
def Grows (d : Data) : Plan → Prop
  | .source cols => (cols.map (·.1)).Nodup
  | .take b x => Grows d x ∧ ∀ a ∈ chain x, ∀ n ∈ a, n ∈ d.names → n ∈ b
  | .coalesce x => Grows d x
  | .keep x => Grows d x
  | .projection es x => Grows d x ∧ (es.map (·.2)).Nodup

theorem nodup_take (d : Data) (hd : d.names.Nodup) (b s : List Name) (hs : s.Nodup) : (s ++ extra d b s).Nodup := by
  rw [List.nodup_append]
  refine ⟨hs, ?_, ?_⟩
  · exact hd.sublist List.filter_sublist
  · intro n hn m hm he
    subst he
    exact ((mem_extra d b s n).mp hm).2.2 hn

theorem grows_nodup (d : Data) (hd : d.names.Nodup) (p : Plan) : Grows d p → (schema d p).Nodup := by
  induction p with
  | source cols => exact id
  | take b x ih => intro h; exact nodup_take d hd b _ (ih h.1)
  | coalesce x ih => exact ih
  | keep x ih => exact ih
  | projection es x ih => intro h; exact h.2

theorem grows_newTake (d : Data) (b : List Name) (x : Plan) (h : Grows d (.take b x)) : Grows d (newTake d b x) := by
  unfold newTake
  split
  · exact h.1
  · exact h

/-- Two takes that are joined. -/
theorem collapse_spec (d : Data) (hd : d.names.Nodup) (a b : List Name) (x p : Plan) (hg : Grows d (.take b x)) (hab : ∀ n ∈ a, n ∈ d.names → n ∈ b)
    (hps : schema d p = schema d (.take b (.take a x))) (hpe : eval d p = eval d (.take b (.take a x))) :
    ∃ p', collapse d (schema d p) b x = some p' ∧ Grows d p' ∧ schema d p' = schema d p ∧ eval d p' = eval d p := by
  have hnodup := grows_nodup d hd x hg.1
  have hnew := nodup_take d hd b _ hnodup
  have hold : (schema d p).Nodup := by rw [hps]; exact nodup_take d hd b _ (nodup_take d hd a _ hnodup)
  have hgrow := grows_newTake d b x hg
  have hsub : ∀ n ∈ extra d a (schema d x) ++ extra d b (schema d x ++ extra d a (schema d x)), n ∈ extra d b (schema d x) := by
    intro n hn
    rw [mem_extra]
    rcases List.mem_append.mp hn with hn | hn
    · rw [mem_extra] at hn
      exact ⟨hn.1, hab n hn.2.1 hn.1, hn.2.2⟩
    · rw [mem_extra] at hn
      exact ⟨hn.1, hn.2.1, fun h => hn.2.2 (List.mem_append_left _ h)⟩
  unfold collapse
  simp only
  split
  · rw [newTake_schema]
    have hnames : ∀ n ∈ schema d p, n ∈ schema d x ++ extra d b (schema d x) := by
      intro n hn
      rw [hps] at hn
      simp only [schema, List.append_assoc] at hn
      rcases List.mem_append.mp hn with hn | hn
      · exact List.mem_append_left _ hn
      · exact List.mem_append_right _ (hsub n hn)
    obtain ⟨es, h1, h2⟩ := remap_names _ _ hnames
    rw [h1]
    refine ⟨_, rfl, ⟨hgrow, by rw [h2]; exact hold⟩, h2, ?_⟩
    simp only [eval, newTake_eval]
    rw [hpe]
    simp only [eval]
    cases hx : eval d x with
    | none => rfl
    | some cols =>
      simp only
      have hk := eval_schema d x cols hx
      have hkeys : (cols ++ (extra d b (schema d x)).map (fun n => (n, d.value n))).map (·.1) = schema d x ++ extra d b (schema d x) := by
        rw [List.map_append, hk, List.map_map]
        exact congrArg (schema d x ++ ·) (List.map_id _)
      have hkeys' : ((cols ++ (extra d a (schema d x)).map (fun n => (n, d.value n))) ++
          (extra d b (schema d x ++ extra d a (schema d x))).map (fun n => (n, d.value n))).map (·.1) = schema d p := by
        rw [hps, List.map_append, List.map_append, hk, List.map_map, List.map_map]
        simp only [schema]
        congr 1
        · exact congrArg (schema d x ++ ·) (List.map_id _)
        · exact List.map_id _
      obtain ⟨es', h3, _, h5⟩ := remap_spec (cols ++ (extra d b (schema d x)).map (fun n => (n, d.value n))) (by rw [hkeys]; exact hnew)
        ((cols ++ (extra d a (schema d x)).map (fun n => (n, d.value n))) ++ (extra d b (schema d x ++ extra d a (schema d x))).map (fun n => (n, d.value n))) (by
          intro c hc
          rw [List.append_assoc, ← List.map_append] at hc
          rcases List.mem_append.mp hc with hc | hc
          · exact List.mem_append_left _ hc
          · obtain ⟨n, hn, rfl⟩ := List.mem_map.mp hc
            exact List.mem_append_right _ (List.mem_map.mpr ⟨n, hsub n hn, rfl⟩))
      rw [hkeys, hkeys', h1] at h3
      cases h3
      exact h5
  · rename_i hdiff
    have heq := orderDiffers_false _ _ (Bool.eq_false_iff.mpr hdiff) (by
      rw [hps, newTake_schema]
      simp only [schema, List.length_append]
      have := length_takes d a b (schema d x) (fun n hn hm => Or.inr (hab n hn hm))
      omega)
    refine ⟨_, rfl, hgrow, heq.symm, ?_⟩
    rw [newTake_schema, hps] at heq
    simp only [schema, List.append_assoc] at heq
    have heq := List.append_cancel_left heq
    rw [newTake_eval, hpe]
    simp only [eval]
    cases eval d x with
    | none => rfl
    | some cols => simp only [schema]; rw [← heq, List.map_append, List.append_assoc]

theorem step_spec (d : Data) (hd : d.names.Nodup) (p : Plan) (hg : Grows d p) : ∃ p', step d p = some p' ∧ Grows d p' ∧ schema d p' = schema d p ∧ eval d p' = eval d p := by
  unfold step
  split
  · rename_i b a x
    exact collapse_spec d hd a b x _ ⟨hg.1.1, fun a' ha => hg.2 a' (List.mem_cons_of_mem _ ha)⟩ (hg.2 a List.mem_cons_self) rfl rfl
  · rename_i b a x
    exact collapse_spec d hd a b x _ ⟨hg.1.1, fun a' ha => hg.2 a' (List.mem_cons_of_mem _ ha)⟩ (hg.2 a List.mem_cons_self) rfl rfl
  · exact ⟨p, rfl, hg, rfl, rfl⟩

theorem optimize_spec (d : Data) (hd : d.names.Nodup) : ∀ (fuel : Nat) (p : Plan), Grows d p → ∃ p', optimize d fuel p = some p' ∧ schema d p' = schema d p ∧ eval d p' = eval d p := by
  intro fuel
  induction fuel with
  | zero => intro p _; exact ⟨p, rfl, rfl, rfl⟩
  | succ fuel ih =>
    intro p hg
    obtain ⟨q, h1, h2, h3, h4⟩ := step_spec d hd p hg
    unfold optimize
    rw [h1]
    cases q with
    | source cols => exact ⟨_, rfl, h3, h4⟩
    | take b x =>
      obtain ⟨x', g1, g2, g3⟩ := ih x h2.1
      refine ⟨newTake d b x', by simp only [g1, Option.map_some], ?_, ?_⟩
      · rw [← h3, newTake_schema, g2]
        rfl
      · rw [← h4, newTake_eval]
        simp only [eval, g2, g3]
    | coalesce x =>
      obtain ⟨x', g1, g2, g3⟩ := ih x h2
      exact ⟨.coalesce x', by simp only [g1, Option.map_some], by rw [← h3]; exact g2, by rw [← h4]; exact g3⟩
    | keep x =>
      obtain ⟨x', g1, g2, g3⟩ := ih x h2
      exact ⟨.keep x', by simp only [g1, Option.map_some], by rw [← h3]; exact g2, by rw [← h4]; exact g3⟩
    | projection es x =>
      obtain ⟨x', g1, g2, g3⟩ := ih x h2.1
      refine ⟨.projection es x', by simp only [g1, Option.map_some], by rw [← h3]; rfl, ?_⟩
      rw [← h4]
      simp only [eval, g3]

end Verif.Optim
