import Verif.Sched.Coalesce

/-!
# C36: coalesced reads return the requested bytes
-/
namespace Verif.Sched

/-! ## The single reads -/

theorem deliver_none {β : Type} (l : List (Nat × Option (List β))) : l.foldl deliver none = none := by
  induction l with
  | nil => rfl
  | cons a l ih => simpa [deliver] using ih

theorem foldl_deliver {β : Type} (reads : List (List β)) (order : List Nat) (bufs : List (List β))
    (hb : bufs.length = reads.length) (ho : ∀ i ∈ order, i < reads.length) :
    ∃ out, (order.map (fun i => (i, reads[i]?))).foldl deliver (some bufs) = some out ∧
      out.length = reads.length ∧ ∀ i, i < reads.length → out[i]? = if i ∈ order then reads[i]? else bufs[i]? := by
  induction order generalizing bufs with
  | nil => exact ⟨bufs, rfl, hb, by simp⟩
  | cons j order ih =>
    have hj := ho j List.mem_cons_self
    obtain ⟨out, h1, h2, h3⟩ := ih (bufs.set j reads[j]) (by simpa using hb)
      (fun i hi => ho i (List.mem_cons_of_mem _ hi))
    refine ⟨out, ?_, h2, ?_⟩
    · simp only [List.map_cons, List.foldl_cons]
      rw [List.getElem?_eq_getElem hj]
      exact h1
    · intro i hi
      rw [h3 i hi]
      by_cases hm : i ∈ order
      · simp [hm]
      · rw [if_neg hm]
        by_cases hij : i = j
        · subst hij
          rw [if_pos List.mem_cons_self, List.getElem?_set_self (by omega), List.getElem?_eq_getElem hj]
        · rw [if_neg (by simp [hij, hm]), List.getElem?_set_ne (by omega)]

/-- However the reads complete, buffer `i` holds the result of read `i`. -/
theorem runReads_eq {β : Type} (file : List β) (reads : List Rng) (order : List Nat)
    (ho : order.Perm (List.range reads.length)) (data : List (List β))
    (hd : reads.map (readRange file) = data.map some) : runReads file reads order = some data := by
  unfold runReads
  have hlen : reads.length = data.length := by simpa using congrArg List.length hd
  have he : order.map (fun i => (i, (reads[i]?).bind (readRange file))) = order.map (fun i => (i, data[i]?)) := by
    apply List.map_congr_left
    intro i _
    have := congrArg (fun l => l[i]?) hd
    simp only [List.getElem?_map] at this
    cases hr : reads[i]? with
    | none =>
      rw [hr] at this
      cases hdi : data[i]? with
      | none => rfl
      | some d => rw [hdi] at this; cases this
    | some r =>
      rw [hr] at this
      cases hdi : data[i]? with
      | none => rw [hdi] at this; cases this
      | some d => rw [hdi] at this; simp at this; simp [this]
  rw [he]
  obtain ⟨out, h1, h2, h3⟩ := foldl_deliver data order (List.replicate reads.length []) (by simpa using hlen) (by
    intro i hi
    have := ho.mem_iff.mp hi
    simp at this; omega)
  rw [h1]
  congr 1
  apply List.ext_getElem?
  intro i
  by_cases hi : i < data.length
  · rw [h3 i hi, if_pos (ho.mem_iff.mpr (by simp; omega))]
  · rw [List.getElem?_eq_none (by omega), List.getElem?_eq_none (by omega)]

/-- If a read fails the request fails, however the reads complete. -/
theorem runReads_error {β : Type} (file : List β) (reads : List Rng) (order : List Nat)
    (ho : order.Perm (List.range reads.length)) (r : Rng) (hr : r ∈ reads) (he : readRange file r = none) :
    runReads file reads order = none := by
  unfold runReads
  obtain ⟨i, hi⟩ := List.mem_iff_getElem?.mp hr
  have hlt : i < reads.length := by
    apply Classical.byContradiction
    intro h
    rw [List.getElem?_eq_none (by omega)] at hi; cases hi
  have hm : i ∈ order := ho.mem_iff.mpr (by simpa using hlt)
  obtain ⟨a, b, rfl⟩ := List.append_of_mem hm
  rw [List.map_append, List.foldl_append, List.map_cons, List.foldl_cons]
  have : ∀ x : Option (List (List β)), deliver x (i, (reads[i]?).bind (readRange file)) = none := by
    intro x
    rw [hi]
    simp only [Option.bind_some, he]
    cases x <;> rfl
  rw [this, deliver_none]

/-! ## Merging and cutting -/

theorem coalesceFrom_head (block : Nat) (curr : Rng) (rs : List Rng) :
    ∃ u us, coalesceFrom block curr rs = u :: us ∧ u.start = curr.start ∧ curr.stop ≤ u.stop := by
  induction rs generalizing curr with
  | nil => exact ⟨curr, [], rfl, rfl, Nat.le_refl _⟩
  | cons r rs ih =>
    unfold coalesceFrom
    split
    · obtain ⟨u, us, h1, h2, h3⟩ := ih { curr with stop := max curr.stop r.stop }
      refine ⟨u, us, h1, h2, ?_⟩
      have h3 : max curr.stop r.stop ≤ u.stop := h3
      omega
    · exact ⟨curr, _, rfl, rfl, Nat.le_refl _⟩

theorem coalesceFrom_mem (block n : Nat) (curr : Rng) (rs : List Rng) (hc : curr.start < curr.stop ∧ curr.stop ≤ n)
    (h : ∀ r ∈ rs, r.start < r.stop ∧ r.stop ≤ n) :
    ∀ u ∈ coalesceFrom block curr rs, u.start < u.stop ∧ u.stop ≤ n := by
  induction rs generalizing curr with
  | nil => intro u hu; simp [coalesceFrom] at hu; subst hu; exact hc
  | cons r rs ih =>
    have hr := h r List.mem_cons_self
    unfold coalesceFrom
    split
    · apply ih
      · simp only; omega
      · exact fun x hx => h x (List.mem_cons_of_mem _ hx)
    · intro u hu
      cases hu with
      | head => exact hc
      | tail _ hu => exact ih r hr (fun x hx => h x (List.mem_cons_of_mem _ hx)) u hu

/-- No request starts before the merged read it goes into. -/
def Follows (block : Nat) : Rng → List Rng → Prop
  | _, [] => True
  | curr, r :: rs =>
    curr.start ≤ r.start ∧
    if closeTogether curr r block then Follows block { curr with stop := max curr.stop r.stop } rs
    else Follows block r rs

theorem cut_bytesOf {β : Type} (file : List β) (u r : Rng) (h1 : u.start ≤ r.start) (h2 : r.stop ≤ u.stop)
    (h3 : u.stop ≤ file.length) (h4 : r.start ≤ r.stop) : cut u (bytesOf file u) r = some (bytesOf file r) := by
  unfold cut bytesOf
  rw [if_pos]
  · congr 1
    rw [List.drop_take, List.drop_drop, List.take_take]
    rw [show u.start + (r.start - u.start) = r.start from by omega]
    congr 1
    omega
  · refine ⟨h1, h4, ?_⟩
    rw [List.length_take, List.length_drop]
    omega

theorem dropWhile_here {β : Type} (u : Rng) (d : β) (us : List (Rng × β)) (r : Rng) (h : overlapping u r = true) :
    ((u, d) :: us).dropWhile (fun x => !overlapping x.1 r) = (u, d) :: us := by
  rw [List.dropWhile_cons_of_neg (by simp [h])]

theorem sliceLoop_right {β : Type} (file : List β) (block : Nat) (curr : Rng) (rs : List Rng)
    (hf : Follows block curr rs) (hc : curr.start < curr.stop ∧ curr.stop ≤ file.length)
    (h : ∀ r ∈ rs, r.start < r.stop ∧ r.stop ≤ file.length) :
    sliceLoop ((coalesceFrom block curr rs).map (fun u => (u, bytesOf file u))) rs = some (rs.map (bytesOf file)) := by
  induction rs generalizing curr with
  | nil => rfl
  | cons r rs ih =>
    have hr := h r List.mem_cons_self
    have hrest : ∀ x ∈ rs, x.start < x.stop ∧ x.stop ≤ file.length := fun x hx => h x (List.mem_cons_of_mem _ hx)
    have hsr : curr.start ≤ r.start := hf.1
    -- the step common to both cases
    have key : ∀ c : Rng, c.start ≤ r.start → r.stop ≤ c.stop → c.start < c.stop ∧ c.stop ≤ file.length →
        Follows block c rs →
        sliceLoop ((coalesceFrom block c rs).map (fun u => (u, bytesOf file u))) (r :: rs) =
          some ((r :: rs).map (bytesOf file)) := by
      intro c h1 h2 h3 h4
      have hmem := coalesceFrom_mem block file.length c rs h3 hrest
      have hih := ih c h4 h3 hrest
      obtain ⟨u, us, e1, e2, e3⟩ := coalesceFrom_head block c rs
      rw [e1] at hmem hih ⊢
      have hu := hmem u List.mem_cons_self
      rw [List.map_cons] at hih ⊢
      unfold sliceLoop
      rw [dropWhile_here u _ _ r (by simp only [overlapping, Bool.and_eq_true, decide_eq_true_eq]; omega)]
      simp only
      rw [cut_bytesOf file u r (by omega) (by omega) hu.2 (by omega)]
      simp only
      rw [hih]
      rfl
    by_cases hct : closeTogether curr r block = true
    · have hf2 : Follows block { curr with stop := max curr.stop r.stop } rs := by
        have := hf.2; rw [if_pos hct] at this; exact this
      rw [show coalesceFrom block curr (r :: rs) = coalesceFrom block { curr with stop := max curr.stop r.stop } rs from by
        rw [coalesceFrom, if_pos hct]]
      apply key _ _ _ _ hf2
      · exact hsr
      · show r.stop ≤ max curr.stop r.stop; omega
      · show curr.start < max curr.stop r.stop ∧ max curr.stop r.stop ≤ file.length; omega
    · have hf2 : Follows block r rs := by
        have := hf.2; rw [if_neg hct] at this; exact this
      rw [show coalesceFrom block curr (r :: rs) = curr :: coalesceFrom block r rs from by
        rw [coalesceFrom, if_neg hct]]
      have hk := key r (Nat.le_refl _) (Nat.le_refl _) hr hf2
      have hno : overlapping curr r = false := by
        simp only [closeTogether, decide_eq_true_eq] at hct
        simp only [overlapping, Bool.and_eq_false_iff, decide_eq_false_iff_not]
        right; omega
      rw [List.map_cons]
      unfold sliceLoop at hk ⊢
      rw [List.dropWhile_cons_of_pos (by simp [hno])]
      exact hk

/-- C36, full statement: for every file, block size, list of ranges in the file and completion order, a request returns
for each range its bytes, in request order. -/
def C36_statement : Prop :=
  ∀ (file : List Nat) (block : Nat) (reqs : List Rng) (order : List Nat),
    (∀ r ∈ reqs, r.start ≤ r.stop ∧ r.stop ≤ file.length) →
    order.Perm (List.range (coalesce block reqs).length) →
    submitRequest file block reqs order = .ok (reqs.map (bytesOf file))

/-- Ranges that are not sorted: the second range lies before the read it is merged into, and is missing from the
answer (no error). -/
theorem C36_violated : ¬ C36_statement := by
  intro h
  have := h [10, 11, 12, 13, 14, 15] 0 [⟨3, 5⟩, ⟨0, 2⟩] [0] (by decide) (by decide)
  revert this
  decide

/-- An empty range at the start of a read makes the answer lose that range and everything after it. -/
theorem C36_empty_range_loses_the_rest :
    submitRequest [10, 11, 12, 13] 0 [⟨0, 0⟩, ⟨0, 2⟩, ⟨2, 4⟩] [0] = .ok [] := by decide

/-- Overlapping ranges that are not sorted panic. -/
theorem C36_unsorted_overlap_panics :
    submitRequest [10, 11, 12, 13, 14, 15] 0 [⟨3, 5⟩, ⟨2, 4⟩] [0] = .panic := by decide

/-- Reading a single empty range panics. -/
theorem C36_single_empty_panics : ∀ (file : List Nat) (block s : Nat),
    submitSingle file block ⟨s, s⟩ = .panic := by
  intro file block s
  simp [submitSingle, submitRequest, coalesce, coalesceFrom, runReads, readRange, deliver, sliceLoop, overlapping]

/-- C36, what holds: for non-empty ranges none of which starts before the read it is merged into, the answer is right —
for every file, every block size and every order in which the reads complete. -/
theorem C36_follows_partial {β : Type} (file : List β) (block : Nat) (r : Rng) (rs : List Rng) (order : List Nat)
    (h : ∀ x ∈ r :: rs, x.start < x.stop ∧ x.stop ≤ file.length) (hf : Follows block r rs)
    (ho : order.Perm (List.range (coalesce block (r :: rs)).length)) :
    submitRequest file block (r :: rs) order = .ok ((r :: rs).map (bytesOf file)) := by
  have hr := h r List.mem_cons_self
  have hrest : ∀ x ∈ rs, x.start < x.stop ∧ x.stop ≤ file.length := fun x hx => h x (List.mem_cons_of_mem _ hx)
  have hmem := coalesceFrom_mem block file.length r rs hr hrest
  unfold submitRequest
  have hrun := runReads_eq file (coalesce block (r :: rs)) order ho
    ((coalesce block (r :: rs)).map (bytesOf file)) (by
      rw [List.map_map]
      apply List.map_congr_left
      intro u hu
      have := hmem u hu
      simp only [readRange, Function.comp_apply]
      rw [if_neg (by omega), if_pos (by omega)])
  rw [hrun]
  simp only
  have hz : (coalesce block (r :: rs)).zip ((coalesce block (r :: rs)).map (bytesOf file)) =
      (coalesce block (r :: rs)).map (fun u => (u, bytesOf file u)) := by
    generalize coalesce block (r :: rs) = l
    induction l with
    | nil => rfl
    | cons a l ih => simp [ih]
  rw [hz]
  have hl := sliceLoop_right file block r rs hf hr hrest
  show (match sliceLoop ((coalesceFrom block r rs).map (fun u => (u, bytesOf file u))) (r :: rs) with
    | none => Answer.panic
    | some l => Answer.ok l) = _
  obtain ⟨u, us, e1, e2, e3⟩ := coalesceFrom_head block r rs
  rw [e1] at hmem hl ⊢
  have hu := hmem u List.mem_cons_self
  rw [List.map_cons] at hl ⊢
  unfold sliceLoop
  rw [dropWhile_here u _ _ r (by simp only [overlapping, Bool.and_eq_true, decide_eq_true_eq]; omega)]
  simp only
  rw [cut_bytesOf file u r (by omega) (by omega) hu.2 (by omega)]
  simp only
  rw [hl]
  rfl

theorem follows_of_sorted (block : Nat) (curr : Rng) (rs : List Rng)
    (h : ∀ r ∈ rs, curr.start ≤ r.start) (hs : rs.Pairwise (fun a b => a.start ≤ b.start)) : Follows block curr rs := by
  induction rs generalizing curr with
  | nil => trivial
  | cons r rs ih =>
    rw [List.pairwise_cons] at hs
    refine ⟨h r List.mem_cons_self, ?_⟩
    split
    · exact ih _ (fun x hx => h x (List.mem_cons_of_mem _ hx)) hs.2
    · exact ih r hs.1 hs.2

/-- C36 for sorted, non-empty ranges (they may overlap). -/
theorem C36_sorted_partial {β : Type} (file : List β) (block : Nat) (reqs : List Rng) (order : List Nat)
    (h : ∀ x ∈ reqs, x.start < x.stop ∧ x.stop ≤ file.length)
    (hs : reqs.Pairwise (fun a b => a.start ≤ b.start))
    (ho : order.Perm (List.range (coalesce block reqs).length)) :
    submitRequest file block reqs order = .ok (reqs.map (bytesOf file)) := by
  cases reqs with
  | nil =>
    have : order = [] := by
      have := ho.length_eq
      simp [coalesce] at this
      exact this
    subst this
    rfl
  | cons r rs =>
    rw [List.pairwise_cons] at hs
    exact C36_follows_partial file block r rs order h (follows_of_sorted block r rs hs.1 hs.2) ho

/-- A request outside the file is an error, never wrong bytes: some read fails, so the whole request does. -/
theorem C36_out_of_file_partial {β : Type} (file : List β) (block : Nat) (reqs : List Rng) (order : List Nat)
    (h : ∀ x ∈ reqs, x.start < x.stop) (hs : reqs.Pairwise (fun a b => a.start ≤ b.start))
    (hout : ∃ x ∈ reqs, file.length < x.stop)
    (ho : order.Perm (List.range (coalesce block reqs).length)) :
    submitRequest file block reqs order = .error := by
  have hcov : ∀ (curr : Rng) (rs : List Rng), (∀ r ∈ rs, r.start < r.stop) → curr.start < curr.stop →
      (file.length < curr.stop ∨ ∃ x ∈ rs, file.length < x.stop) →
      ∃ u ∈ coalesceFrom block curr rs, u.start < u.stop ∧ file.length < u.stop := by
    intro curr rs
    induction rs generalizing curr with
    | nil =>
      intro _ hc hx
      rcases hx with hx | ⟨x, hx, _⟩
      · exact ⟨curr, List.mem_cons_self, hc, hx⟩
      · cases hx
    | cons r rs ih =>
      intro hne hc hx
      have hr := hne r List.mem_cons_self
      have hrest : ∀ x ∈ rs, x.start < x.stop := fun x hx => hne x (List.mem_cons_of_mem _ hx)
      unfold coalesceFrom
      split
      · apply ih _ hrest
        · show curr.start < max curr.stop r.stop; omega
        · rcases hx with hx | ⟨x, hx, hxe⟩
          · left; show file.length < max curr.stop r.stop; omega
          · cases hx with
            | head => left; show file.length < max curr.stop r.stop; omega
            | tail _ hx => exact Or.inr ⟨x, hx, hxe⟩
      · rcases hx with hx | ⟨x, hx, hxe⟩
        · exact ⟨curr, List.mem_cons_self, hc, hx⟩
        · obtain ⟨u, hu, hu2⟩ := ih r hrest hr (by
            cases hx with
            | head => exact Or.inl hxe
            | tail _ hx => exact Or.inr ⟨x, hx, hxe⟩)
          exact ⟨u, List.mem_cons_of_mem _ hu, hu2⟩
  cases reqs with
  | nil => obtain ⟨x, hx, _⟩ := hout; cases hx
  | cons r rs =>
    obtain ⟨u, hu, hu1, hu2⟩ := hcov r rs (fun x hx => h x (List.mem_cons_of_mem _ hx)) (h r List.mem_cons_self) (by
      obtain ⟨x, hx, hxe⟩ := hout
      cases hx with
      | head => exact Or.inl hxe
      | tail _ hx => exact Or.inr ⟨x, hx, hxe⟩)
    unfold submitRequest
    rw [runReads_error file (coalesce block (r :: rs)) order ho u hu (by
      unfold readRange
      rw [if_neg (by omega), if_neg (by omega)])]

/-- Reading one non-empty range. -/
theorem C36_single {β : Type} (file : List β) (block : Nat) (r : Rng) (h : r.start < r.stop)
    (he : r.stop ≤ file.length) : submitSingle file block r = .ok [bytesOf file r] := by
  unfold submitSingle
  rw [C36_sorted_partial file block [r] [0] (by intro x hx; simp at hx; subst hx; exact ⟨h, he⟩) (by simp)
    (List.Perm.refl _)]
  rfl

/-- Three ranges, two of them merged, completing in reverse order. -/
example : submitRequest [10, 11, 12, 13, 14, 15, 16, 17, 18] 1 [⟨0, 2⟩, ⟨3, 5⟩, ⟨7, 9⟩] [1, 0] =
    .ok [[10, 11], [13, 14], [17, 18]] ∧
    coalesce 1 [⟨0, 2⟩, ⟨3, 5⟩, ⟨7, 9⟩] = [⟨0, 5⟩, ⟨7, 9⟩] ∧ [1, 0].Perm (List.range 2) := by
  refine ⟨by decide, by decide, ?_⟩
  exact List.Perm.swap _ _ _

/-- Not sorted, but every range starts inside the read it is merged into. -/
example : Follows 1 ⟨0, 6⟩ [⟨4, 6⟩, ⟨2, 5⟩] ∧
    submitRequest [10, 11, 12, 13, 14, 15, 16] 1 [⟨0, 6⟩, ⟨4, 6⟩, ⟨2, 5⟩] [0] =
      .ok [[10, 11, 12, 13, 14, 15], [14, 15], [12, 13, 14]] := by
  refine ⟨⟨by decide, ?_⟩, by decide⟩
  rw [if_pos (by decide)]
  exact ⟨by decide, by rw [if_pos (by decide)]; trivial⟩

end Verif.Sched
