import Verif.Optim.Simplify

/-! # C123: joining takes -/

namespace Verif.Optim

/-- Scans with a filter that an index answers, in any order of rows, give the same columns after the rules as before. -/
def C123_statement : Prop :=
  ∀ (d : Data) (rowid : Name × Nat) (columns ordering : List Name) (fuel : Nat), d.names.Nodup → rowid.1 ∉ d.names →
    ∃ p, optimize d fuel (indexedScan d rowid columns ordering) = some p ∧ eval d p = eval d (indexedScan d rowid columns ordering)

/-- Any plan in which takes ask for what the takes directly below them ask for gives the same columns, in the same order, after the rule as before; missing: other plans. -/
theorem C123_rule_partial (d : Data) (hd : d.names.Nodup) (fuel : Nat) (p : Plan) (h : Grows d p) :
    ∃ p', optimize d fuel p = some p' ∧ schema d p' = schema d p ∧ eval d p' = eval d p := optimize_spec d hd fuel p h

/-- The rule that removes projections keeps the columns of every plan. -/
theorem C123_simplify (d : Data) (fuel : Nat) (p : Plan) : schema d (simplify d fuel p) = schema d p ∧ eval d (simplify d fuel p) = eval d p := simplify_spec d fuel p

/-- Both rules, one after the other. -/
theorem C123_both_partial (d : Data) (hd : d.names.Nodup) (fuel : Nat) (p : Plan) (h : Grows d p) :
    ∃ p', (optimize d fuel p).map (simplify d fuel) = some p' ∧ schema d p' = schema d p ∧ eval d p' = eval d p := by
  obtain ⟨q, h1, h2, h3⟩ := optimize_spec d hd fuel p h
  refine ⟨simplify d fuel q, by rw [h1]; rfl, ?_, ?_⟩
  · rw [(simplify_spec d fuel q).1, h2]
  · rw [(simplify_spec d fuel q).2, h3]

theorem extra_nil (d : Data) (p s : List Name) (h : ∀ n ∈ p, n ∈ d.names → n ∈ s) : extra d p s = [] := by
  apply List.eq_nil_iff_forall_not_mem.mpr
  intro n hn
  rw [mem_extra] at hn
  exact hn.2.2 (h n hn.2.1 hn.1)

theorem scannerTake_schema (d : Data) (x : Plan) (p : List Name) : schema d (scannerTake d x p) = schema d x ++ extra d p (schema d x) := by
  unfold scannerTake
  split
  · rename_i h
    rw [show extra d p (schema d x) = [] from h, List.append_nil]
  · rfl

/-- Scans whose order is by columns that are asked for. -/
theorem C123_scan_partial (d : Data) (rowid : Name × Nat) (columns ordering : List Name) (fuel : Nat) (hd : d.names.Nodup)
    (ho : ∀ n ∈ ordering, n ∈ d.names → n ∈ columns) :
    ∃ p, optimize d fuel (indexedScan d rowid columns ordering) = some p ∧ eval d p = eval d (indexedScan d rowid columns ordering) := by
  have hg : Grows d (indexedScan d rowid columns ordering) := by
    have hfound : Grows d (scannerTake d (.source [rowid]) columns) := by
      unfold scannerTake
      split
      · simp [Grows]
      · exact ⟨by simp [Grows], fun a ha => nomatch ha⟩
    have hin : ∀ n ∈ columns, n ∈ d.names → n ∈ schema d (scannerTake d (.source [rowid]) columns) := by
      intro n hn hm
      rw [scannerTake_schema, List.mem_append, mem_extra]
      by_cases h : n ∈ schema d (.source [rowid])
      · exact Or.inl h
      · exact Or.inr ⟨hm, hn, h⟩
    have same : ∀ (x : Plan) (p : List Name), (∀ n ∈ p, n ∈ d.names → n ∈ schema d x) → scannerTake d x p = x := by
      intro x p h
      unfold scannerTake
      exact if_pos (extra_nil d p _ h)
    have e1 := same (scannerTake d (.source [rowid]) columns) ordering (fun n hn hm => hin n (ho n hn hm) hm)
    unfold indexedScan
    simp only
    rw [e1, e1]
    split
    · rw [same _ columns hin]
      exact hfound
    · rw [same (.keep _) columns hin]
      exact hfound
  obtain ⟨p, h1, _, h3⟩ := optimize_spec d hd fuel _ hg
  exact ⟨p, h1, h3⟩

/-- A column that the inner take reads and the outer one does not ask for is lost, or the rule panics, for any plan below. -/
theorem C123_lost (d : Data) (a b : List Name) (x : Plan) (n : Name) (hn : n ∈ d.names) (ha : n ∈ a) (hb : n ∉ b) (hx : n ∉ schema d x) :
    n ∈ schema d (.take b (.coalesce (.take a x))) ∧
      (step d (.take b (.coalesce (.take a x))) = none ∨ ∃ p, step d (.take b (.coalesce (.take a x))) = some p ∧ n ∉ schema d p) := by
  have hold : n ∈ schema d (.take b (.coalesce (.take a x))) := by
    simp only [schema, List.mem_append, mem_extra]
    exact Or.inl (Or.inr ⟨hn, ha, hx⟩)
  have hnew : n ∉ schema d (newTake d b x) := by
    rw [newTake_schema, List.mem_append, mem_extra]
    rintro (h | h)
    · exact hx h
    · exact hb h.2.1
  refine ⟨hold, ?_⟩
  unfold step collapse
  simp only
  split
  · rw [remap_none _ _ n hold hnew]
    exact Or.inl rfl
  · exact Or.inr ⟨_, rfl, hnew⟩

theorem orderDiffers_prefix : ∀ (s t : List Name), orderDiffers (s ++ t) s = false := by
  intro s
  induction s with
  | nil => intro t; cases t <;> rfl
  | cons n s ih => intro t; simp [orderDiffers, ih]

/-- If the outer take asks for nothing that is not there below the inner one, then both takes are gone, without a panic, and so is every column that the inner one reads. -/
theorem C123_lost_silently (d : Data) (a b : List Name) (x : Plan) (hb : ∀ n ∈ b, n ∈ d.names → n ∈ schema d x) :
    step d (.take b (.coalesce (.take a x))) = some x ∧ ∀ n ∈ d.names, n ∈ a → n ∉ schema d x → n ∈ schema d (.take b (.coalesce (.take a x))) := by
  refine ⟨?_, ?_⟩
  · have h : newTake d b x = x := if_pos (extra_nil d b _ hb)
    unfold step collapse
    simp only [h]
    rw [schema, schema, schema, List.append_assoc, orderDiffers_prefix]
    rfl
  · intro n hn ha hx
    simp only [schema, List.mem_append, mem_extra]
    exact Or.inl (Or.inr ⟨hn, ha, hx⟩)

/-- A scan with a filter that an index answers and an order by columns none of which is asked for panics when it is planned. -/
theorem C123_order_violated (d : Data) (rowid : Name × Nat) (columns ordering : List Name) (fuel : Nat) (hr : rowid.1 ∉ d.names) (m o : Name)
    (hm : m ∈ d.names ∧ m ∈ columns) (ho : o ∈ d.names ∧ o ∈ ordering) (hdis : ∀ n ∈ columns, n ∉ ordering) :
    optimize d (fuel + 2) (indexedScan d rowid columns ordering) = none := by
  have hmr : m ≠ rowid.1 := fun h => hr (h ▸ hm.1)
  have hor : o ≠ rowid.1 := fun h => hr (h ▸ ho.1)
  have hm0 : m ∈ extra d columns [rowid.1] := (mem_extra d columns _ m).mpr ⟨hm.1, hm.2, by simpa using hmr⟩
  have ho0 : o ∈ extra d ordering [rowid.1] := (mem_extra d ordering _ o).mpr ⟨ho.1, ho.2, by simpa using hor⟩
  have ho1 : o ∈ extra d ordering (rowid.1 :: extra d columns [rowid.1]) := by
    rw [mem_extra]
    refine ⟨ho.1, ho.2, ?_⟩
    rw [List.mem_cons, mem_extra]
    rintro (h | h)
    · exact hor h
    · exact hdis o h.2.1 ho.2
  have e1 : scannerTake d (.source [rowid]) columns = .take columns (.coalesce (.source [rowid])) := by
    unfold scannerTake
    rw [if_neg]
    exact List.ne_nil_of_mem hm0
  have e2 : scannerTake d (.take columns (.coalesce (.source [rowid]))) ordering = .take ordering (.coalesce (.take columns (.coalesce (.source [rowid])))) := by
    unfold scannerTake
    rw [if_neg]
    exact List.ne_nil_of_mem ho1
  have same : ∀ (x : Plan) (p : List Name), (∀ n ∈ p, n ∈ d.names → n ∈ schema d x) → scannerTake d x p = x := by
    intro x p h
    unfold scannerTake
    exact if_pos (extra_nil d p _ h)
  have covers : ∀ (s p : List Name) (n : Name), n ∈ p → n ∈ d.names → n ∈ s ++ extra d p s := by
    intro s p n h1 h2
    rw [List.mem_append, mem_extra]
    by_cases h : n ∈ s
    · exact Or.inl h
    · exact Or.inr ⟨h2, h1, h⟩
  have e3 : indexedScan d rowid columns ordering = .keep (.take ordering (.coalesce (.take columns (.coalesce (.source [rowid]))))) := by
    unfold indexedScan
    simp only
    rw [e1, e2, same _ ordering (fun n h1 h2 => covers _ _ n h1 h2), if_neg (List.ne_nil_of_mem ho.2), same]
    intro n h1 h2
    exact List.mem_append_left _ (covers _ _ n h1 h2)
  have hstep : step d (.take ordering (.coalesce (.take columns (.coalesce (.source [rowid]))))) = none := by
    unfold step collapse
    simp only [newTake_schema, schema, List.map_cons, List.map_nil]
    have hdiff : orderDiffers ([rowid.1] ++ extra d columns [rowid.1] ++ extra d ordering ([rowid.1] ++ extra d columns [rowid.1])) ([rowid.1] ++ extra d ordering [rowid.1]) = true := by
      cases h1 : extra d columns [rowid.1] with
      | nil => rw [h1] at hm0; exact nomatch hm0
      | cons u us =>
        cases h2 : extra d ordering [rowid.1] with
        | nil => rw [h2] at ho0; exact nomatch ho0
        | cons w ws =>
          have hu := (mem_extra d columns [rowid.1] u).mp (by rw [h1]; exact List.mem_cons_self)
          have hw := (mem_extra d ordering [rowid.1] w).mp (by rw [h2]; exact List.mem_cons_self)
          have hne : u ≠ w := fun h => hdis u hu.2.1 (h ▸ hw.2.1)
          simp [orderDiffers, hne]
    rw [if_pos hdiff, remap_none _ _ m]
    · exact List.mem_append_left _ (List.mem_append_right _ hm0)
    · rw [List.mem_append, mem_extra]
      rintro (h | h)
      · exact hmr (by simpa using h)
      · exact hdis m hm.2 h.2.1
  have hopt : optimize d (fuel + 1) (.take ordering (.coalesce (.take columns (.coalesce (.source [rowid]))))) = none := by
    unfold optimize
    rw [hstep]
  rw [e3]
  unfold optimize
  show Option.map Plan.keep (optimize d (fuel + 1) (.take ordering (.coalesce (.take columns (.coalesce (.source [rowid])))))) = none
  rw [hopt]
  rfl

theorem C123_violated : ¬ C123_statement := by
  intro h
  obtain ⟨p, h1, _⟩ := h ⟨[1, 2, 3], id⟩ (0, 7) [1] [2] 2 (by decide) (by decide)
  rw [C123_order_violated ⟨[1, 2, 3], id⟩ (0, 7) [1] [2] 0 (by decide) 1 2 (by decide) (by decide) (by decide)] at h1
  exact nomatch h1

/-- The rule joins takes, and puts the columns back into their order; and the scans that it does not break have columns to read. -/
theorem C123_nonvacuous :
    let d : Data := ⟨[1, 2, 3], (· + 10)⟩
    let p : Plan := .take [1, 2, 3] (.coalesce (.take [3] (.coalesce (.source [(0, 7)]))))
    Grows d p ∧ optimize d 9 p = some (.projection [(0, 0), (3, 3), (1, 1), (2, 2)] (.take [1, 2, 3] (.coalesce (.source [(0, 7)])))) ∧
      eval d p = some [(0, 7), (3, 13), (1, 11), (2, 12)] ∧
      optimize d 9 (.take [1, 2] (.take [1] (.source [(0, 7)]))) = some (.take [1, 2] (.source [(0, 7)])) ∧
      eval d (indexedScan d (0, 7) [3, 1] [3]) = some [(0, 7), (1, 11), (3, 13)] ∧
      simplify d 9 (.keep (.projection [(0, 0), (1, 2)] (.take [2] (.source [(0, 7)])))) = .keep (.take [2] (.source [(0, 7)])) ∧
      step d (.take [1] (.coalesce (.take [2] (.source [(1, 11)])))) = some (.source [(1, 11)]) := by
  refine ⟨?_, by decide, by decide, by decide, by decide, by decide, by decide⟩
  refine ⟨⟨by simp [Grows], fun a ha => nomatch ha⟩, ?_⟩
  intro a ha
  have : a = [3] := by simpa [chain] using ha
  subst this
  decide

end Verif.Optim
