import Verif.Stats.LemmasCollect

/-! # C71: statistics of a page bound what is in the page -/
namespace Verif.Stats

/-- C71.  Whatever a scan concludes from the statistics of a page is true of every value of the page. -/
def C71_statement : Prop :=
  ∀ (k : Kind) (nullable : Bool) (arrays : List (List (Option Val))), HasKind k arrays →
    (nullable = false → ∀ x ∈ arrays.flatten, x ≠ none) → Sound k nullable arrays

/-- What the code needs to be right. -/
def Clean : Kind → List (List (Option Val)) → Prop
  | .int _ _, _ => True
  | .flt inf, arrays => ∀ k, some (.flt k) ∈ arrays.flatten → isNan inf k = false
  | .bool, arrays => BoolClean (arrays.map (·.map (·.map Val.bool?)))
  | .utf8, arrays => ∀ v, some (.bytes v) ∈ arrays.flatten → v.length > 64 → isCont (v.getD 64 0) = false
  | .binary, _ => True

/-- C71 for integers, dates, decimals and binary values; for floats without NaN; for booleans whose nulls do not come in arrays after
both values were seen; for strings which have a character boundary at byte 64 if they are longer.  Missing: the other cases, for which
it is false. -/
theorem C71_partial (k : Kind) (nullable : Bool) (arrays : List (List (Option Val))) (hk : HasKind k arrays)
    (hn : nullable = false → ∀ x ∈ arrays.flatten, x ≠ none) (hc : Clean k arrays) : Sound k nullable arrays := by
  cases k with
  | int lo hi =>
    obtain ⟨mn, mx, h1, h2, _⟩ := collect_int hk
    exact sound_of h1 rfl h2 hn
  | flt inf =>
    obtain ⟨s, h1, h2, h3⟩ := collect_flt hk hc
    exact sound_of h1 h2 h3 hn
  | bool =>
    obtain ⟨s, h1, h2, h3⟩ := collect_bool hk hc
    exact sound_of h1 h2 h3 hn
  | utf8 =>
    obtain ⟨mn, mx, h1, h2, h3⟩ := collect_utf8 hk
    refine sound_of h1 rfl ?_ hn
    intro v hv
    obtain ⟨l, e, _⟩ := hasKind_vals hk v hv
    subst e
    exact between_bytes (h2 l hv) (h3 hc l hv)
  | binary =>
    obtain ⟨mn, mx, h1, h2, h3⟩ := collect_binary hk
    refine sound_of h1 rfl ?_ hn
    intro v hv
    obtain ⟨l, e, _⟩ := hasKind_vals hk v hv
    subst e
    exact between_bytes (h2 l hv) (h3 l hv)

/-- The bounds of integers are values of the page, and the count of nulls is the count of nulls. -/
theorem C71_int_exact (lo hi : Int) (arrays : List (List (Option Val))) (hk : HasKind (.int lo hi) arrays)
    (hne : ∃ v, some v ∈ arrays.flatten) :
    ∃ s mn mx, collect (.int lo hi) arrays = some s ∧ s.min = some (.int mn) ∧ s.max = some (.int mx) ∧
      some (.int mn) ∈ arrays.flatten ∧ some (.int mx) ∈ arrays.flatten ∧
      (∀ i, some (.int i) ∈ arrays.flatten → mn ≤ i ∧ i ≤ mx) ∧
      s.nulls = (arrays.flatten.filter (fun x => x == none)).length := by
  obtain ⟨mn, mx, h1, h2, h3⟩ := collect_int hk
  obtain ⟨h4, h5⟩ := h3 hne
  refine ⟨_, mn, mx, h1, rfl, rfl, h4, h5, ?_, ?_⟩
  · intro i hi
    obtain ⟨h6, h7⟩ := h2 _ hi
    exact ⟨h6 _ rfl, h7 _ rfl⟩
  · show nullCount arrays.flatten = _
    unfold nullCount
    rw [List.countP_eq_length_filter]
    congr 2
    funext x
    cases x <;> rfl

/-- For strings the lower bound and the count of nulls hold without any condition, and nothing panics. -/
theorem C71_utf8_lower (arrays : List (List (Option Val))) (hk : HasKind .utf8 arrays) :
    ∃ s, collect .utf8 arrays = some s ∧ s.nulls = (arrays.flatten.filter (fun x => x == none)).length ∧
      ∀ v, some v ∈ arrays.flatten → ∀ m, s.min = some m → m.Le v := by
  obtain ⟨mn, mx, h1, h2, _⟩ := collect_utf8 hk
  refine ⟨_, h1, ?_, ?_⟩
  · show nullCount arrays.flatten = _
    unfold nullCount
    rw [List.countP_eq_length_filter]
    congr 2
    funext x
    cases x <;> rfl
  · intro v hv m hm
    obtain ⟨l, e, _⟩ := hasKind_vals hk v hv
    subst e
    rw [Option.map_eq_some_iff] at hm
    obtain ⟨m', e, e2⟩ := hm
    subst e2
    exact h2 l hv m' e

/-- The stored bounds are short: at most 64 bytes, so statistics do not grow with the values. -/
theorem C71_binary_short (arrays : List (List (Option Val))) (hk : HasKind .binary arrays) (s : Stat)
    (hs : collect .binary arrays = some s) : ∀ m, s.min = some (.bytes m) → m.length ≤ 64 := by
  have hk' := hasKind_vals hk
  have key : ∀ (as : List (List (Option (List Nat)))) (s : Option (List Nat) × Option (List Nat) × Bool) (n : Nat) r,
      (∀ m, s.1 = some m → m.length ≤ 64) → bytesLoop truncBinary (s, n) as = some r → ∀ m, r.1.1 = some m → m.length ≤ 64 := by
    have arr : ∀ (a : List (Option (List Nat))) (s s' : Option (List Nat) × Option (List Nat) × Bool),
        (∀ m, s.1 = some m → m.length ≤ 64) → bytesArray truncBinary s a = some s' → ∀ m, s'.1 = some m → m.length ≤ 64 := by
      intro a
      induction a with
      | nil => intro s s' h e; cases e; exact h
      | cons x a ih =>
        intro s s' h e
        cases x with
        | none => exact ih s s' h e
        | some v =>
          unfold bytesArray at e
          split at e
          · exact nomatch e
          · rename_i s1 hs1
            refine ih s1 s' ?_ e
            intro m hm
            unfold bytesStep at hs1
            simp only [Option.map_eq_some_iff] at hs1
            obtain ⟨⟨q, fl⟩, hq, hs1⟩ := hs1
            have hql : q.length ≤ 64 := by
              split at hq
              · rw [Option.map_eq_some_iff] at hq
                obtain ⟨q', h1, h2⟩ := hq
                cases h2
                unfold truncBinary at h1
                split at h1
                · exact nomatch h1
                · cases h1; rw [List.length_take]; exact Nat.min_le_left _ _
              · rename_i hl
                cases hq
                exact Nat.le_of_not_lt hl
            subst hs1
            simp only at hm
            split at hm
            · rename_i m0 hm0
              split at hm
              · cases hm; exact hql
              · cases hm; exact h _ hm0
            · cases hm; exact hql
    intro as
    induction as with
    | nil => intro s n r h e; cases e; exact h
    | cons a as ih =>
      intro s n r h e
      unfold bytesLoop at e
      simp only at e
      split at e
      · exact ih s _ r h e
      · split at e
        · exact nomatch e
        · rename_i s1 hs1
          exact ih s1 _ r (arr a s s1 h hs1) e
  intro m hm
  unfold collect bytesStats at hs
  simp only [Option.map_eq_some_iff] at hs
  obtain ⟨r, hr, hs⟩ := hs
  subst hs
  simp only [Option.map_eq_some_iff] at hm
  obtain ⟨m', e, e2⟩ := hm
  cases e2
  exact key _ _ _ r (by intro m h; cases h) hr _ e

/-! ## Violations -/

/-- A Float32 page with 1.0 and a NaN. -/
def nanPage : List (List (Option Val)) := [[some (.flt 1065353216), some (.flt 2143289344)]]

/-- A Boolean page from two arrays: true and false, then a null. -/
def boolPage : List (List (Option Val)) := [[some (.bool true), some (.bool false)], [none]]

def manyA (n : Nat) : List Nat := List.replicate n 0x61

/-- A string page: 62 letters `a` and an emoji, and 64 letters `a`. -/
def emojiPage : List (List (Option Val)) := [[some (.bytes (manyA 62 ++ [0xF0, 0x9F, 0x98, 0x80])), some (.bytes (manyA 64))]]

theorem nanPage_kind : HasKind (.flt 2139095040) nanPage := by
  intro a ha v hv
  simp only [nanPage, List.mem_singleton] at ha
  subst ha
  simp only [List.mem_cons, Option.some.injEq, List.not_mem_nil, or_false] at hv
  rcases hv with hv | hv <;> exact ⟨by decide, _, hv⟩

theorem boolPage_kind : HasKind .bool boolPage := by
  intro a ha v hv
  simp only [boolPage, List.mem_cons, List.not_mem_nil, or_false] at ha
  rcases ha with ha | ha <;> subst ha
  · simp only [List.mem_cons, Option.some.injEq, List.not_mem_nil, or_false] at hv
    rcases hv with hv | hv <;> exact ⟨_, hv⟩
  · simp at hv

theorem emojiPage_kind : HasKind .utf8 emojiPage := by
  intro a ha v hv
  simp only [emojiPage, List.mem_singleton] at ha
  subst ha
  simp only [List.mem_cons, Option.some.injEq, List.not_mem_nil, or_false] at hv
  rcases hv with hv | hv
  · exact ⟨_, hv, by decide +kernel⟩
  · exact ⟨_, hv, by decide +kernel⟩

/-- The upper bound stored for it: 63 letters `a` and a `b`. -/
theorem emojiPage_stat : collect .utf8 emojiPage = some ⟨0, some (.bytes (manyA 62)), some (.bytes (manyA 63 ++ [0x62]))⟩ := by
  decide +kernel

/-- A NaN is not counted, but sorts above the upper bound. -/
theorem C71_nan_violated : HasKind (.flt 2139095040) nanPage ∧ ¬ Sound (.flt 2139095040) true nanPage := by
  refine ⟨nanPage_kind, ?_⟩
  intro ⟨s, hs, h⟩
  have e : collect (.flt 2139095040) nanPage = some ⟨0, some (.flt 1065353216), some (.flt 1065353216)⟩ := by decide
  rw [e] at hs
  cases hs
  obtain ⟨v, hv, hb⟩ := h (some (.flt 2143289344)) (by simp [nanPage])
  cases hv
  exact absurd (show (2143289344 : Int) ≤ 1065353216 from hb.2 _ rfl) (by decide)

/-- Nulls after both booleans are not counted: the page is taken to have none. -/
theorem C71_bool_violated : HasKind .bool boolPage ∧ ¬ Sound .bool true boolPage := by
  refine ⟨boolPage_kind, ?_⟩
  intro ⟨s, hs, h⟩
  have e : collect .bool boolPage = some ⟨0, some (.bool false), some (.bool true)⟩ := by decide
  rw [e] at hs
  cases hs
  obtain ⟨v, hv, _⟩ := h none (by simp [boolPage])
  cases hv

/-- A string cut before byte 64 may lie above the upper bound. -/
theorem C71_utf8_violated : HasKind .utf8 emojiPage ∧ ¬ Sound .utf8 true emojiPage := by
  refine ⟨emojiPage_kind, ?_⟩
  intro ⟨s, hs, h⟩
  rw [emojiPage_stat] at hs
  cases hs
  obtain ⟨v, hv, hb⟩ := h (some (.bytes (manyA 62 ++ [0xF0, 0x9F, 0x98, 0x80]))) (by simp [emojiPage])
  cases hv
  have hle : LexLe (manyA 62 ++ [0xF0, 0x9F, 0x98, 0x80]) (manyA 63 ++ [0x62]) := hb.2 _ rfl
  have strip : ∀ (p : List Nat) (a b : List Nat), LexLe (p ++ a) (p ++ b) → LexLe a b := by
    intro p
    induction p with
    | nil => intro a b h; exact h
    | cons x p ih =>
      intro a b h
      rcases h with h | ⟨_, h⟩
      · exact absurd h (Nat.lt_irrefl x)
      · exact ih a b h
  have e2 : manyA 63 ++ [0x62] = manyA 62 ++ [0x61, 0x62] := by decide
  rw [e2] at hle
  rcases strip _ _ _ hle with h | ⟨h, _⟩
  · exact absurd h (by decide)
  · exact absurd h (by decide)

theorem C71_violated : ¬ C71_statement := by
  intro h
  exact C71_nan_violated.2 (h _ true _ nanPage_kind (fun e => nomatch e))

/-! ## Non-trivial cases -/

/-- Two long ASCII strings and a null, in two arrays: the bounds are cut, the upper one is incremented. -/
theorem C71_nonvacuous :
    let arrays : List (List (Option Val)) := [[some (.bytes (manyA 70)), none], [some (.bytes (manyA 64 ++ [0x7A])), some (.bytes [0x61])]]
    HasKind .utf8 arrays ∧ Clean .utf8 arrays ∧
      collect .utf8 arrays = some ⟨1, some (.bytes [0x61]), some (.bytes (manyA 63 ++ [0x62]))⟩ := by
  refine ⟨?_, ?_, by decide +kernel⟩
  · intro a ha v hv
    simp only [List.mem_cons, List.not_mem_nil, or_false] at ha
    rcases ha with ha | ha <;> subst ha
    · simp only [List.mem_cons, Option.some.injEq, List.not_mem_nil, or_false, reduceCtorEq] at hv
      exact ⟨_, hv, by decide +kernel⟩
    · simp only [List.mem_cons, Option.some.injEq, List.not_mem_nil, or_false] at hv
      rcases hv with hv | hv
      · exact ⟨_, hv, by decide +kernel⟩
      · exact ⟨_, hv, by decide +kernel⟩
  · intro v hv _
    simp only [List.flatten_cons, List.flatten_nil, List.append_nil, List.cons_append, List.nil_append, List.mem_cons,
      Option.some.injEq, Val.bytes.injEq, List.not_mem_nil, or_false, reduceCtorEq, false_or] at hv
    rcases hv with hv | hv | hv <;> subst hv <;> decide +kernel

/-- Zeros: the bounds are widened to -0.0 and 0.0. -/
theorem C71_zero_nonvacuous : collect (.flt 2139095040) [[some (.flt 0), none, some (.flt 0)]] =
    some ⟨1, some (.flt (-1)), some (.flt 0)⟩ ∧ Clean (.flt 2139095040) [[some (.flt 0), none, some (.flt 0)]] := by
  refine ⟨by decide, ?_⟩
  intro k hk
  simp at hk
  subst hk
  decide

/-- Booleans with nulls before both values were seen. -/
theorem C71_bool_nonvacuous : Clean .bool [[none, some (.bool true)], [some (.bool false), none]] ∧
    collect .bool [[none, some (.bool true)], [some (.bool false), none]] = some ⟨2, some (.bool false), some (.bool true)⟩ := by
  refine ⟨?_, by decide⟩
  intro pre post h ht hf
  simp only [List.map_cons, List.map_nil, Option.map_none, Option.map_some, Val.bool?] at h
  match pre, h with
  | [], _ => simp at ht
  | [a], h =>
    simp only [List.cons_append, List.nil_append, List.cons.injEq] at h
    rw [← h.1] at hf
    simp at hf
  | [a, b], h =>
    simp only [List.cons_append, List.nil_append, List.cons.injEq] at h
    rw [← h.2.2]
    rfl
  | a :: b :: c :: d, h => simp at h

end Verif.Stats
