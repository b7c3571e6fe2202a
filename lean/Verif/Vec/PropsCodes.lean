import Verif.Vec.PropsSearch
/-!
# C80: the codes of merged rows
-/
namespace Verif.Vec
variable {V C : Type}

/-- C80: the code of a row is the one that an index built now would give it. -/
def C80_statement : Prop :=
  ∀ (V C : Type) (ops : List (Op V C)), Fresh (State.init V C) ops → ∀ c ds, ((State.init V C).run ops).index = some (c, ds) →
    ∀ d ∈ ds, ∀ e ∈ d.file.entries, ∀ v, lookup ((State.init V C).run ops).frags e.2.1 = some (some v) → e.2.2 = c.quant (c.fresh v)

/-- The code of a row is that of its normalized residual or that of its plain vector. -/
theorem C80_codes_partial (ops : List (Op V C)) (hf : Fresh (State.init V C) ops) (c : Cfg V C) (ds : List (Delta C))
    (hix : ((State.init V C).run ops).index = some (c, ds)) (d : Delta C) (hd : d ∈ ds) (e : Nat × Addr × C) (he : e ∈ d.file.entries) (v : V)
    (hl : lookup ((State.init V C).run ops).frags e.2.1 = some (some v)) : e.2.2 = c.quant (c.fresh v) ∨ e.2.2 = c.quant v := by
  obtain ⟨parts, hok⟩ := ((reach hf).index c ds hix).2.1.1 d hd
  obtain ⟨rows, h1, h2⟩ := (mem_entries hok.file).1 he
  obtain ⟨v', hv, _, hc⟩ := hok.sound _ rows h1 _ h2 _ hl
  cases hv
  exact hc.imp_right And.right

/-- C80 if no `optimize_indices` merges deltas. -/
theorem C80_no_merge_partial (ops : List (Op V C)) (hf : Fresh (State.init V C) ops) (hm : NoMerge ops) (c : Cfg V C) (ds : List (Delta C))
    (hix : ((State.init V C).run ops).index = some (c, ds)) (d : Delta C) (hd : d ∈ ds) (e : Nat × Addr × C) (he : e ∈ d.file.entries) (v : V)
    (hl : lookup ((State.init V C).run ops).frags e.2.1 = some (some v)) : e.2.2 = c.quant (c.fresh v) := by
  have hinv : Inv false ((State.init V C).run ops) := Inv.run Inv.init hf (Or.inr hm)
  obtain ⟨parts, hok⟩ := (hinv.index c ds hix).2.1.1 d hd
  obtain ⟨rows, h1, h2⟩ := (mem_entries hok.file).1 he
  obtain ⟨v', hv, _, hc⟩ := hok.sound _ rows h1 _ h2 _ hl
  cases hv
  rcases hc with hc | ⟨hc, _⟩
  · exact hc
  · cases hc

/-- C80 if the code does not see normalization and residual (flat and scalar quantized indices with other distances than cosine). -/
theorem C80_plain_partial (ops : List (Op V C)) (hf : Fresh (State.init V C) ops) (c : Cfg V C) (ds : List (Delta C))
    (hix : ((State.init V C).run ops).index = some (c, ds)) (hplain : ∀ v, c.quant (c.fresh v) = c.quant v) (d : Delta C) (hd : d ∈ ds)
    (e : Nat × Addr × C) (he : e ∈ d.file.entries) (v : V)
    (hl : lookup ((State.init V C).run ops).frags e.2.1 = some (some v)) : e.2.2 = c.quant (c.fresh v) := by
  rcases C80_codes_partial ops hf c ds hix d hd e he v hl with h | h
  · exact h
  · rw [h, hplain]

/-- Two partitions with the centroids 0 and 100; the codes are residuals without loss. -/
def residCfg : Cfg Int Int :=
  { nparts := 2
    norm := id
    part := fun v => if v < 50 then some 0 else some 1
    resid := fun p v => v - (if p = 0 then 0 else 100)
    quant := id
    bufferSize := 2
    split := fun l => if l.isEmpty then [] else [l] }

theorem residCfg_valid : residCfg.Valid := by
  refine ⟨by decide, ?_, ?_, ?_⟩
  · intro v p hp
    simp only [residCfg] at hp ⊢
    split at hp <;> cases hp <;> omega
  · intro l
    cases l <;> simp [residCfg]
  · intro l b hb
    cases l with
    | nil => cases hb
    | cons x xs =>
      cases List.mem_singleton.1 hb
      intro e
      cases e

/-- The distance to `t`; codes are residuals. -/
def residDist (t : Int) : Dist Int Int :=
  { dist := fun v => (v - t).natAbs
    code := fun p r => (r + (if p = 0 then 0 else 100) - t).natAbs
    centroid := fun p => p }

/-- An index on two rows, a third row, a merge. -/
def merged : List (Op Int Int) := [.append [some 101, some 40], .create residCfg, .append [some 90], .optimize 1]

theorem merged_fresh : Fresh (State.init Int Int) merged := by
  refine ⟨trivial, residCfg_valid, trivial, ?_, trivial⟩
  intro c ds hix
  have hz : ∀ ix : Option (Cfg Int Int × List (Delta Int)), ix = some (c, ds) → (ix.map Prod.snd).getD [] = ds := by
    intro ix h; rw [h]; rfl
  rw [← hz _ hix]
  have : (unindexed (((State.init Int Int).run (merged.take 3)).frags) (deltasOf (merged.take 3))).map Frag.id = [1] := by decide +kernel
  intro e
  have e' : unindexed (((State.init Int Int).run (merged.take 3)).frags) (deltasOf (merged.take 3)) = [] := e
  rw [e'] at this
  cases this

theorem merged_entries : (deltasOf merged).map (fun d => d.file.entries) = [[(0, (0, 1), 40), (1, (0, 0), 101), (1, (1, 0), -10)]] := by decide +kernel

theorem C80_violated : ¬C80_statement := by
  intro h
  have hd : ∃ d ∈ deltasOf merged, (1, (0, 0), (101 : Int)) ∈ d.file.entries := by
    have := merged_entries
    cases hds : deltasOf merged with
    | nil => rw [hds] at this; cases this
    | cons d ds =>
      rw [hds] at this
      refine ⟨d, List.mem_cons_self, ?_⟩
      rw [List.map_cons, List.cons_eq_cons] at this
      rw [this.1]
      decide
  obtain ⟨d, hdm, he⟩ := hd
  have := h Int Int merged merged_fresh residCfg (deltasOf merged) (index_of rfl) d hdm _ he 101 (by decide +kernel)
  exact absurd this (by decide +kernel)

/-- The search finds a row that is farther, although the codes are without loss and all partitions are probed: before the merge it finds the nearest row. -/
theorem C80_search_after_merge_violated :
    knn stdSrt { query2 with k := 1 } (residDist 101) ((State.init Int Int).run (merged.take 3)) = some [((0, 0), 0)] ∧
    knn stdSrt { query2 with k := 1 } (residDist 101) ((State.init Int Int).run merged) = some [((1, 0), 11)] := by decide +kernel

/-- The hypotheses of the theorems hold: without a merge the codes are residuals. -/
theorem C80_nonvacuous : Fresh (State.init Int Int) (merged.take 3) ∧ NoMerge (merged.take 3) ∧
    ((State.init Int Int).run (merged.take 3)).index = some (residCfg, deltasOf (merged.take 3)) ∧
    (deltasOf (merged.take 3)).map (fun d => d.file.entries) = [[(0, (0, 1), 40), (1, (0, 0), 1)]] := by
  refine ⟨⟨trivial, residCfg_valid, trivial, trivial⟩, ?_, index_of rfl, by decide +kernel⟩
  intro op hop n hn
  subst hn
  simp [merged] at hop

end Verif.Vec
