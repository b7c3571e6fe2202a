import Verif.Evolve.LemmasRows
import Verif.Evolve.LemmasAdd
import Verif.Evolve.LemmasDrop
import Verif.Evolve.LemmasDelete
import Verif.Evolve.LemmasAlter3
/-!
# Histories
-/
namespace Verif.Evolve

theorem stepDs_ok {cs : Casts} {past : List Ds} {d d' : Ds} {op : Op} (hcs : cs.strict) (hi : Inv d) (hp : ∀ e ∈ past, Inv e) (hw : WfOp op)
    (hf : Fine cs d op) (h : stepDs cs past d op = some d') : Inv d' ∧ specStep cs (past.map Ds.table) d.table op = some d'.table := by
  cases op with
  | create lg b sizes =>
    obtain ⟨h1, h2⟩ := create_ok hw.1 hw.2 h
    exact ⟨h1, by rw [h2]; rfl⟩
  | append b sizes =>
    obtain ⟨h1, h2⟩ := append_ok hi hw.1 hw.2 hf h
    exact ⟨h1, by rw [h2]; rfl⟩
  | addUdf reads out =>
    obtain ⟨h1, h2⟩ := addUdf_ok hi hw.1 hw.2 hf.1 hf.2 h
    exact ⟨h1, by rw [h2]; rfl⟩
  | addNulls new =>
    obtain ⟨h1, h2⟩ := addNulls_ok hi hw.1 hw.2 h
    exact ⟨h1, by rw [h2]; rfl⟩
  | addStream b sizes =>
    obtain ⟨h1, h2⟩ := addStream_ok hi hw.1 hw.2 h
    exact ⟨h1, by rw [h2]; rfl⟩
  | alter alts =>
    obtain ⟨h1, h2, h3⟩ := alter_ok hcs hi hf h
    refine ⟨h1, ?_⟩
    simp only [specStep, h3, Option.map_some, ← h2]
  | drop paths =>
    obtain ⟨h1, h2⟩ := drop_ok hi hf h
    exact ⟨h1, by rw [h2]; rfl⟩
  | delete dead =>
    simp only [stepDs, Option.some.injEq] at h
    subst h
    obtain ⟨h1, h2⟩ := delete_ok hi dead
    exact ⟨h1, by rw [h2]; rfl⟩
  | compact lo len sizes =>
    obtain ⟨h1, h2⟩ := compact_ok hi h
    exact ⟨h1, by rw [h2]; rfl⟩
  | restore k =>
    simp only [stepDs] at h
    refine ⟨hp _ (List.mem_of_getElem? h), ?_⟩
    simp [specStep, h]

theorem run_ok {cs : Casts} (hcs : cs.strict) : ∀ {ops : List Op} {s : State}, Inv s.cur → (∀ e ∈ s.past, Inv e) → (∀ op ∈ ops, WfOp op) →
    FineRun cs s ops → Inv (run cs s ops).1.cur ∧ (∀ e ∈ (run cs s ops).1.past, Inv e) ∧
    specRun cs (s.past.map Ds.table) s.cur.table (run cs s ops).2 = some ((run cs s ops).1.past.map Ds.table, (run cs s ops).1.cur.table)
  | [], s, hi, hp, _, _ => ⟨hi, hp, rfl⟩
  | op :: ops, s, hi, hp, hw, hf => by
    have hw' : ∀ op ∈ ops, WfOp op := fun o ho => hw o (by simp [ho])
    unfold FineRun at hf
    unfold run
    cases e : step cs s op with
    | none =>
      rw [e] at hf
      exact run_ok hcs hi hp hw' hf
    | some s' =>
      rw [e] at hf
      simp only at hf ⊢
      unfold step at e
      cases e1 : stepDs cs s.past s.cur op with
      | none => rw [e1] at e; cases e
      | some d =>
        rw [e1] at e
        simp only [Option.map_some, Option.some.injEq] at e
        subst e
        obtain ⟨h1, h2⟩ := stepDs_ok hcs hi hp (hw op (by simp)) hf.1 e1
        have h3 := run_ok hcs (s := ⟨d, s.past ++ [s.cur]⟩) h1 (by
          intro x hx
          rcases List.mem_append.1 hx with hx | hx
          · exact hp x hx
          · simp only [List.mem_singleton] at hx
            subst hx
            exact hi) hw' hf.2
        refine ⟨h3.1, h3.2.1, ?_⟩
        simp only [specRun, h2]
        have := h3.2.2
        simp only [List.map_append, List.map_cons, List.map_nil] at this
        exact this

theorem init_inv : Inv State.init.cur := by
  refine ⟨⟨List.nodup_nil, (fun _ h => nomatch h), trivial, trivial⟩, (fun _ h => nomatch h), fun _ => rfl⟩

end Verif.Evolve
