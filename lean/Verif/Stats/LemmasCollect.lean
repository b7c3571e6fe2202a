import Verif.Stats.LemmasBytes

/-! # Lemmas: from the statistics of each type to guarantees -/
namespace Verif.Stats

theorem valsOf_map {α β : Type} (g : α → β) (arrays : List (List (Option α))) :
    valsOf (arrays.map (·.map (·.map g))) = (valsOf arrays).map g := by
  unfold valsOf
  rw [← List.map_flatten, List.filterMap_map, List.map_filterMap]
  congr 1

theorem nullCount_map {α β : Type} (g : α → β) (a : List (Option α)) : nullCount (a.map (·.map g)) = nullCount a := by
  unfold nullCount
  rw [List.countP_map]
  congr 1
  funext x
  cases x <;> rfl

theorem nullCount_flatten_map {α β : Type} (g : α → β) (arrays : List (List (Option α))) :
    nullCount (arrays.map (·.map (·.map g))).flatten = nullCount arrays.flatten := by
  rw [← List.map_flatten, nullCount_map]

theorem guarantee_holds {nullable : Bool} {l : List (Option Val)} {s : Stat} (hn : s.nulls = nullCount l)
    (hb : ∀ v, some v ∈ l → Between s.min s.max v) (hnn : nullable = false → ∀ x ∈ l, x ≠ none) :
    ∀ x ∈ l, (guarantee nullable l.length s).Holds x := by
  intro x hx
  unfold guarantee
  simp only
  generalize hm : (if nullable = true then s.nulls else 0) = n
  by_cases h0 : n = 0
  · rw [if_pos h0]
    have hne : x ≠ none := by
      cases nullable with
      | false => exact hnn rfl x hx
      | true =>
        rw [if_pos rfl, hn] at hm
        exact nullCount_zero (hm.trans h0) x hx
    cases x with
    | none => exact absurd rfl hne
    | some v => exact ⟨v, rfl, hb v hx⟩
  · rw [if_neg h0]
    by_cases h1 : n = l.length
    · rw [if_pos h1]
      cases nullable with
      | false => exact absurd hm.symm h0
      | true =>
        rw [if_pos rfl, hn] at hm
        exact nullCount_full (hm.trans h1) x hx
    · rw [if_neg h1]
      intro v hv
      rw [hv] at hx
      exact hb v hx

theorem hasKind_vals {k : Kind} {arrays : List (List (Option Val))} (h : HasKind k arrays) : ∀ v, some v ∈ arrays.flatten → k.Has v := by
  intro v hv
  obtain ⟨a, ha, hva⟩ := List.mem_flatten.1 hv
  exact h a ha v hva

/-- What the lemmas on one type give: the count of nulls is right, and the bounds hold. -/
theorem sound_of {k : Kind} {nullable : Bool} {arrays : List (List (Option Val))} {s : Stat} (hs : collect k arrays = some s)
    (hn : s.nulls = nullCount arrays.flatten) (hb : ∀ v, some v ∈ arrays.flatten → Between s.min s.max v)
    (hnn : nullable = false → ∀ x ∈ arrays.flatten, x ≠ none) : Sound k nullable arrays :=
  ⟨s, hs, guarantee_holds hn hb hnn⟩

theorem collect_int {lo hi : Int} {arrays : List (List (Option Val))} (h : HasKind (.int lo hi) arrays) :
    ∃ mn mx : Int, collect (.int lo hi) arrays = some ⟨nullCount arrays.flatten, some (.int mn), some (.int mx)⟩ ∧
      (∀ v, some v ∈ arrays.flatten → Between (some (.int mn)) (some (.int mx)) v) ∧
      ((∃ v, some v ∈ arrays.flatten) → some (.int mn) ∈ arrays.flatten ∧ some (.int mx) ∈ arrays.flatten) := by
  have hk := hasKind_vals h
  have hvals : ∀ i, i ∈ (valsOf arrays).map Val.int? ↔ some (.int i) ∈ arrays.flatten := by
    intro i
    rw [List.mem_map]
    constructor
    · intro ⟨v, hv, e⟩
      rw [mem_valsOf] at hv
      obtain ⟨j, hj, _⟩ := hk v hv
      subst hj
      have : j = i := e
      subst this
      exact hv
    · intro hi
      exact ⟨.int i, mem_valsOf.2 hi, rfl⟩
  obtain ⟨mn, mx, h1, h2, h3⟩ := intStats_ok lo hi (arrays.map (·.map (·.map Val.int?))) (by
    rw [valsOf_map]
    intro i hi
    obtain ⟨j, hj, hb⟩ := hk _ ((hvals i).1 hi)
    cases hj
    exact hb)
  rw [valsOf_map] at h2 h3
  refine ⟨mn, mx, ?_, ?_, ?_⟩
  · show some (intStats lo hi _) = _
    rw [h1, nullCount_flatten_map]
  · intro v hv
    obtain ⟨j, hj, _⟩ := hk v hv
    subst hj
    have := h2 j ((hvals j).2 hv)
    exact ⟨fun l hl => by cases hl; exact this.1, fun l hl => by cases hl; exact this.2⟩
  · intro ⟨v, hv⟩
    have := h3 (by
      intro he
      rw [List.map_eq_nil_iff] at he
      have hm := mem_valsOf.2 hv
      rw [he] at hm
      exact nomatch hm)
    exact ⟨(hvals mn).1 this.1, (hvals mx).1 this.2⟩

theorem collect_flt {inf : Int} {arrays : List (List (Option Val))} (h : HasKind (.flt inf) arrays)
    (hn : ∀ k, some (.flt k) ∈ arrays.flatten → isNan inf k = false) :
    ∃ s, collect (.flt inf) arrays = some s ∧ s.nulls = nullCount arrays.flatten ∧
      (∀ v, some v ∈ arrays.flatten → Between s.min s.max v) := by
  have hk := hasKind_vals h
  by_cases hne : ∃ v, some v ∈ arrays.flatten
  · obtain ⟨v0, hv0⟩ := hne
    have hinf := (hk v0 hv0).1
    have hvals : ∀ i, i ∈ (valsOf arrays).map Val.flt? ↔ some (.flt i) ∈ arrays.flatten := by
      intro i
      rw [List.mem_map]
      constructor
      · intro ⟨v, hv, e⟩
        rw [mem_valsOf] at hv
        obtain ⟨_, j, hj⟩ := hk v hv
        subst hj
        have : j = i := e
        subst this
        exact hv
      · intro hi
        exact ⟨.flt i, mem_valsOf.2 hi, rfl⟩
    obtain ⟨mn, mx, h1, h2⟩ := fltStats_ok inf hinf (arrays.map (·.map (·.map Val.flt?))) (by
      rw [valsOf_map]
      intro i hi
      exact hn i ((hvals i).1 hi))
    rw [valsOf_map] at h2
    refine ⟨⟨nullCount arrays.flatten, some (.flt mn), some (.flt mx)⟩, ?_, rfl, ?_⟩
    · show some (fltStats inf _) = _
      rw [h1, nullCount_flatten_map]
    · intro v hv
      obtain ⟨_, j, hj⟩ := hk v hv
      subst hj
      have := h2 j ((hvals j).2 hv)
      exact ⟨fun l hl => by cases hl; exact this.1, fun l hl => by cases hl; exact this.2⟩
  · refine ⟨_, rfl, ?_, fun v hv => absurd ⟨v, hv⟩ hne⟩
    unfold fltStats
    rw [fltLoop_eq]
    simp only [Nat.zero_add]
    exact nullCount_flatten_map _ _

theorem collect_bool {arrays : List (List (Option Val))} (h : HasKind .bool arrays)
    (hc : BoolClean (arrays.map (·.map (·.map Val.bool?)))) :
    ∃ s, collect .bool arrays = some s ∧ s.nulls = nullCount arrays.flatten ∧
      (∀ v, some v ∈ arrays.flatten → Between s.min s.max v) := by
  have hk := hasKind_vals h
  refine ⟨_, rfl, ?_, ?_⟩
  · have := boolLoop_nulls _ [] 0 (show BoolClean ([] ++ _) from hc)
    rw [nullCount_flatten_map, Nat.zero_add] at this
    exact this
  · intro v hv
    obtain ⟨b, hb⟩ := hk v hv
    subst hb
    have hm : some b ∈ (arrays.map (·.map (·.map Val.bool?))).flatten := by
      rw [← List.map_flatten]
      exact List.mem_map.2 ⟨_, hv, rfl⟩
    have hr := boolLoop_ok (arrays.map (·.map (·.map Val.bool?))) false false 0 rfl
    unfold boolStats
    simp only at hr ⊢
    generalize boolLoop (false, false, 0) (arrays.map (·.map (·.map Val.bool?))) = r at *
    obtain ⟨t, f, n⟩ := r
    simp only at hr
    constructor
    · intro l hl
      cases hl
      intro e
      have e : (t && !f) = true := e
      cases b with
      | true => rfl
      | false =>
        rcases hr with ⟨_, h2⟩ | ⟨_, h2⟩
        · rw [h2 hm] at e; simp at e
        · rw [h2] at e; simp at e
    · intro l hl
      cases hl
      intro e
      subst e
      show (t || !f) = true
      rcases hr with ⟨h2, _⟩ | ⟨h2, _⟩
      · rw [h2 hm]; rfl
      · rw [h2]; rfl

theorem bytes_vals {arrays : List (List (Option Val))} (hk : ∀ v, some v ∈ arrays.flatten → ∃ l, v = .bytes l) :
    ∀ i, i ∈ (valsOf arrays).map Val.bytes? ↔ some (.bytes i) ∈ arrays.flatten := by
  intro i
  rw [List.mem_map]
  constructor
  · intro ⟨v, hv, e⟩
    rw [mem_valsOf] at hv
    obtain ⟨j, hj⟩ := hk v hv
    subst hj
    have : j = i := e
    subst this
    exact hv
  · intro hi
    exact ⟨.bytes i, mem_valsOf.2 hi, rfl⟩

theorem collect_utf8 {arrays : List (List (Option Val))} (h : HasKind .utf8 arrays) :
    ∃ mn mx : Option (List Nat), collect .utf8 arrays = some ⟨nullCount arrays.flatten, mn.map .bytes, mx.map .bytes⟩ ∧
      (∀ v, some (.bytes v) ∈ arrays.flatten → ∀ m, mn = some m → LexLe m v) ∧
      ((∀ v, some (.bytes v) ∈ arrays.flatten → v.length > 64 → isCont (v.getD 64 0) = false) →
        ∀ v, some (.bytes v) ∈ arrays.flatten → ∀ m, mx = some m → LexLe v m) := by
  have hk := hasKind_vals h
  have hvals := bytes_vals (fun v hv => let ⟨l, e, _⟩ := hk v hv; ⟨l, e⟩)
  have hvalid : ∀ i, some (.bytes i) ∈ arrays.flatten → utf8Valid i = true := by
    intro i hi
    obtain ⟨l, e, h⟩ := hk _ hi
    cases e
    exact h
  obtain ⟨mn, mx, h1, h2, h3⟩ := bytesStats_ok (trunc := truncUtf8) (incr := incUtf8) (fun v q hq => (truncUtf8_prefix hq).1)
    (fun t u => incUtf8_beyond) (arrays.map (·.map (·.map Val.bytes?))) (by
      rw [valsOf_map]
      intro i hi
      unfold cutTo
      split
      · rename_i hl
        exact truncUtf8_total (by decide) (Nat.le_of_lt hl) (hvalid i ((hvals i).1 hi))
      · rfl)
  rw [valsOf_map] at h2 h3
  refine ⟨mn, mx, ?_, ?_, ?_⟩
  · rw [nullCount_flatten_map] at h1
    exact h1
  · intro v hv m hm
    exact h2 v ((hvals v).2 hv) m hm
  · intro hb v hv m hm
    refine h3 ?_ ?_ v ((hvals v).2 hv) m hm
    · intro w hw hl q hq
      have := truncUtf8_boundary (v := w) (n := prefixLen) (by decide) (Nat.le_of_lt hl) (hb w ((hvals w).1 hw) hl)
      rw [this] at hq
      cases hq
      rw [List.length_take]
      omega
    · intro w q _ hq
      exact (truncUtf8_prefix hq).2

theorem collect_binary {arrays : List (List (Option Val))} (h : HasKind .binary arrays) :
    ∃ mn mx : Option (List Nat), collect .binary arrays = some ⟨nullCount arrays.flatten, mn.map .bytes, mx.map .bytes⟩ ∧
      (∀ v, some (.bytes v) ∈ arrays.flatten → ∀ m, mn = some m → LexLe m v) ∧
      (∀ v, some (.bytes v) ∈ arrays.flatten → ∀ m, mx = some m → LexLe v m) := by
  have hk := hasKind_vals h
  have hvals := bytes_vals (fun v hv => let ⟨l, e, _⟩ := hk v hv; ⟨l, e⟩)
  have hq : ∀ v q, truncBinary v prefixLen = some q → q = v.take prefixLen ∧ prefixLen ≤ v.length := by
    intro v q hq
    unfold truncBinary at hq
    split at hq
    · exact nomatch hq
    · cases hq; exact ⟨rfl, by omega⟩
  obtain ⟨mn, mx, h1, h2, h3⟩ := bytesStats_ok (trunc := truncBinary) (incr := inc)
    (fun v q h => by rw [(hq v q h).1]; exact List.take_prefix _ _)
    (fun t u => inc_beyond) (arrays.map (·.map (·.map Val.bytes?))) (by
      intro i _
      unfold cutTo
      split
      · rename_i hl
        unfold truncBinary
        rw [if_neg (by omega)]
        rfl
      · rfl)
  rw [valsOf_map] at h2 h3
  rw [nullCount_flatten_map] at h1
  refine ⟨mn, mx, h1, ?_, ?_⟩
  · intro v hv m hm
    exact h2 v ((hvals v).2 hv) m hm
  · intro v hv m hm
    refine h3 ?_ ?_ v ((hvals v).2 hv) m hm
    · intro w _ _ q h
      obtain ⟨e, hl⟩ := hq w q h
      rw [e, List.length_take]
      omega
    · intro w q _ h
      rw [(hq w q h).1, List.length_take]
      omega

theorem between_bytes {mn mx : Option (List Nat)} {v : List Nat} (h1 : ∀ m, mn = some m → LexLe m v)
    (h2 : ∀ m, mx = some m → LexLe v m) : Between (mn.map .bytes) (mx.map .bytes) (.bytes v) := by
  constructor
  · intro l hl
    rw [Option.map_eq_some_iff] at hl
    obtain ⟨m, e, e2⟩ := hl
    subst e2
    exact h1 m e
  · intro l hl
    rw [Option.map_eq_some_iff] at hl
    obtain ⟨m, e, e2⟩ := hl
    subst e2
    exact h2 m e

end Verif.Stats
