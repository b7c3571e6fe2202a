import Verif.Scalar.Lemmas
import Verif.Chunk.PropsStream

/-! Helper lemmas for the btree index. -/
namespace Verif.Scalar
open Verif
open Verif.RowSet (TreeMap)

variable {V : Type} [LinOrd V] [DecidableEq V]

/-! ### Least and greatest value -/

omit [DecidableEq V] in
theorem minVal_spec (vs : List (Option V)) (x : V) (h : some x ∈ vs) :
    ∃ m, minVal vs = some m ∧ LinOrd.le m x = true := by
  induction vs with
  | nil => cases h
  | cons v vs ih =>
    cases v with
    | none =>
      rcases List.mem_cons.1 h with h | h
      · cases h
      · exact ih h
    | some y =>
      simp only [minVal]
      rcases List.mem_cons.1 h with h | h
      · cases h
        cases hm : minVal vs with
        | none => exact ⟨x, rfl, le_refl x⟩
        | some z =>
          simp only
          split
          · exact ⟨x, rfl, le_refl x⟩
          · rename_i hn
            exact ⟨z, rfl, le_of_lt ((lt_iff _ _).2 hn)⟩
      · obtain ⟨z, hz, hle⟩ := ih h
        rw [hz]
        simp only
        split
        · rename_i hyz
          exact ⟨y, rfl, LinOrd.trans _ _ _ hyz hle⟩
        · exact ⟨z, rfl, hle⟩

omit [DecidableEq V] in
theorem maxVal_spec (vs : List (Option V)) (x : V) (h : some x ∈ vs) :
    ∃ m, maxVal vs = some m ∧ LinOrd.le x m = true := by
  induction vs with
  | nil => cases h
  | cons v vs ih =>
    cases v with
    | none =>
      rcases List.mem_cons.1 h with h | h
      · cases h
      · exact ih h
    | some y =>
      simp only [maxVal]
      rcases List.mem_cons.1 h with h | h
      · cases h
        cases hm : maxVal vs with
        | none => exact ⟨x, rfl, le_refl x⟩
        | some z =>
          simp only
          split
          · exact ⟨x, rfl, le_refl x⟩
          · rename_i hn
            exact ⟨z, rfl, le_of_lt ((lt_iff _ _).2 hn)⟩
      · obtain ⟨z, hz, hle⟩ := ih h
        rw [hz]
        simp only
        split
        · rename_i hyz
          exact ⟨y, rfl, LinOrd.trans _ _ _ hle hyz⟩
        · exact ⟨z, rfl, hle⟩

omit [DecidableEq V] in
theorem minVal_mem (vs : List (Option V)) (m : V) (h : minVal vs = some m) : some m ∈ vs := by
  induction vs generalizing m with
  | nil => cases h
  | cons v vs ih =>
    cases v with
    | none => exact List.mem_cons_of_mem _ (ih m h)
    | some y =>
      simp only [minVal] at h
      split at h
      · cases h; exact List.mem_cons_self ..
      · rename_i z hz
        split at h
        · cases h; exact List.mem_cons_self ..
        · cases h; exact List.mem_cons_of_mem _ (ih _ hz)

omit [DecidableEq V] in
theorem maxVal_mem (vs : List (Option V)) (m : V) (h : maxVal vs = some m) : some m ∈ vs := by
  induction vs generalizing m with
  | nil => cases h
  | cons v vs ih =>
    cases v with
    | none => exact List.mem_cons_of_mem _ (ih m h)
    | some y =>
      simp only [maxVal] at h
      split at h
      · cases h; exact List.mem_cons_self ..
      · rename_i z hz
        split at h
        · cases h; exact List.mem_cons_self ..
        · cases h; exact List.mem_cons_of_mem _ (ih _ hz)

/-! ### The tree -/

theorem mem_entry_recs {k : Option V} {rs : List (PageRec V)} {t : List (Option V × List (PageRec V))}
    {k' : Option V} {r : PageRec V} :
    (∃ e ∈ entry k rs t, e.1 = k' ∧ r ∈ e.2) ↔ (k' = k ∧ r ∈ rs) ∨ ∃ e ∈ t, e.1 = k' ∧ r ∈ e.2 := by
  induction t with
  | nil =>
    simp only [entry, List.mem_singleton]
    constructor
    · rintro ⟨e, rfl, rfl, h⟩; exact Or.inl ⟨rfl, h⟩
    · rintro (⟨rfl, h⟩ | ⟨e, h, _⟩)
      · exact ⟨_, rfl, rfl, h⟩
      · cases h
  | cons x t ih =>
    simp only [entry]
    split
    · simp only [List.mem_cons, exists_eq_or_imp]
      constructor
      · rintro (⟨rfl, h⟩ | h)
        · exact Or.inl ⟨rfl, h⟩
        · exact Or.inr h
      · rintro (⟨rfl, h⟩ | h)
        · exact Or.inl ⟨rfl, h⟩
        · exact Or.inr h
    · split
      · rename_i hx
        simp only [List.mem_cons, exists_eq_or_imp, List.mem_append]
        constructor
        · rintro (⟨h1, h2 | h2⟩ | h)
          · exact Or.inr (Or.inl ⟨h1, h2⟩)
          · exact Or.inl ⟨by rw [← h1, hx], h2⟩
          · exact Or.inr (Or.inr h)
        · rintro (⟨h1, h2⟩ | ⟨h1, h2⟩ | h)
          · exact Or.inl ⟨by rw [h1, hx], Or.inr h2⟩
          · exact Or.inl ⟨h1, Or.inl h2⟩
          · exact Or.inr h
      · simp only [List.mem_cons, exists_eq_or_imp, ih]
        constructor
        · rintro (h | h | h)
          · exact Or.inr (Or.inl h)
          · exact Or.inl h
          · exact Or.inr (Or.inr h)
        · rintro (h | h | h)
          · exact Or.inr (Or.inl h)
          · exact Or.inl h
          · exact Or.inr (Or.inr h)

theorem mem_entry_key {k : Option V} {rs : List (PageRec V)} {t : List (Option V × List (PageRec V))}
    {e : Option V × List (PageRec V)} (h : e ∈ entry k rs t) : e.1 = k ∨ ∃ e' ∈ t, e'.1 = e.1 := by
  induction t with
  | nil => simp [entry] at h; exact Or.inl (by rw [h])
  | cons x t ih =>
    simp only [entry] at h
    split at h
    · rcases List.mem_cons.1 h with h | h
      · exact Or.inl (by rw [h])
      · exact Or.inr ⟨e, h, rfl⟩
    · split at h
      · rcases List.mem_cons.1 h with h | h
        · exact Or.inr ⟨x, List.mem_cons_self .., by rw [h]⟩
        · exact Or.inr ⟨e, List.mem_cons_of_mem _ h, rfl⟩
      · rcases List.mem_cons.1 h with h | h
        · exact Or.inr ⟨x, List.mem_cons_self .., by rw [h]⟩
        · rcases ih h with h | ⟨e', h, h'⟩
          · exact Or.inl h
          · exact Or.inr ⟨e', List.mem_cons_of_mem _ h, h'⟩

theorem mem_stats_recs (stats : List (Stat V)) (t : List (Option V × List (PageRec V))) (k' : Option V)
    (r : PageRec V) :
    (∃ e ∈ stats.foldl addStat t, e.1 = k' ∧ r ∈ e.2) ↔
      (∃ s ∈ stats, s.max ≠ none ∧ k' = s.min ∧ r = ⟨s.max, s.page⟩) ∨ ∃ e ∈ t, e.1 = k' ∧ r ∈ e.2 := by
  induction stats generalizing t with
  | nil => simp
  | cons s stats ih =>
    rw [List.foldl_cons, ih]
    have : (∃ e ∈ addStat t s, e.1 = k' ∧ r ∈ e.2) ↔
        (s.max ≠ none ∧ k' = s.min ∧ r = ⟨s.max, s.page⟩) ∨ ∃ e ∈ t, e.1 = k' ∧ r ∈ e.2 := by
      unfold addStat
      split
      · rename_i h; simp [h]
      · rename_i h
        rw [mem_entry_recs]
        simp [h]
    rw [this]
    simp only [List.mem_cons, exists_eq_or_imp]
    constructor
    · rintro (h | h | h)
      · exact Or.inl (Or.inr h)
      · exact Or.inl (Or.inl h)
      · exact Or.inr h
    · rintro ((h | h) | h)
      · exact Or.inr (Or.inl h)
      · exact Or.inl h
      · exact Or.inr (Or.inr h)

theorem mem_stats_key (stats : List (Stat V)) (t : List (Option V × List (PageRec V)))
    (e : Option V × List (PageRec V)) (h : e ∈ stats.foldl addStat t) :
    (∃ s ∈ stats, s.max ≠ none ∧ e.1 = s.min) ∨ ∃ e' ∈ t, e'.1 = e.1 := by
  induction stats generalizing t with
  | nil => exact Or.inr ⟨e, h, rfl⟩
  | cons s stats ih =>
    rw [List.foldl_cons] at h
    rcases ih _ h with ⟨s', h1, h2⟩ | ⟨e', h1, h2⟩
    · exact Or.inl ⟨s', List.mem_cons_of_mem _ h1, h2⟩
    · unfold addStat at h1
      split at h1
      · exact Or.inr ⟨e', h1, h2⟩
      · rename_i hs
        rcases mem_entry_key h1 with h3 | ⟨e'', h3, h4⟩
        · exact Or.inl ⟨s, List.mem_cons_self .., hs, by rw [← h2, h3]⟩
        · exact Or.inr ⟨e'', h3, by rw [h4, h2]⟩

/-- The keys of the tree. -/
def IsKey (stats : List (Stat V)) (k : Option V) : Prop :=
  (∃ s ∈ stats, s.max ≠ none ∧ k = s.min) ∨ ∃ s, stats.getLast? = some s ∧ k = s.max

theorem tree_recs (stats : List (Stat V)) (k : Option V) (r : PageRec V) :
    (∃ e ∈ (loadLookup stats).tree, e.1 = k ∧ r ∈ e.2) ↔
      ∃ s ∈ stats, s.max ≠ none ∧ k = s.min ∧ r = ⟨s.max, s.page⟩ := by
  unfold loadLookup
  cases hl : stats.getLast? with
  | none =>
    rw [List.getLast?_eq_none_iff] at hl
    subst hl; simp
  | some last =>
    show (∃ e ∈ entry last.max [] (stats.foldl addStat []), _) ↔ _
    rw [mem_entry_recs, mem_stats_recs]
    simp

theorem tree_keys (stats : List (Stat V)) (e : Option V × List (PageRec V)) (h : e ∈ (loadLookup stats).tree) :
    IsKey stats e.1 := by
  unfold loadLookup at h
  cases hl : stats.getLast? with
  | none => rw [hl] at h; cases h
  | some last =>
    rw [hl] at h
    rcases mem_entry_key h with h1 | ⟨e', h1, h2⟩
    · exact Or.inr ⟨last, hl, h1⟩
    · rcases mem_stats_key _ _ _ h1 with ⟨s, h3, h4, h5⟩ | ⟨e'', h3, _⟩
      · exact Or.inl ⟨s, h3, h4, by rw [← h2, h5]⟩
      · cases h3

theorem null_pages (stats : List (Stat V)) (p : Nat) :
    p ∈ (loadLookup stats).nullPages ↔ ∃ s ∈ stats, 0 < s.nulls ∧ s.page = p := by
  unfold loadLookup
  cases hl : stats.getLast? with
  | none =>
    rw [List.getLast?_eq_none_iff] at hl
    subst hl; simp
  | some last =>
    show p ∈ (stats.filter _).map _ ↔ _
    rw [List.mem_map]
    constructor
    · rintro ⟨s, h1, h2⟩
      rw [List.mem_filter, decide_eq_true_iff] at h1
      exact ⟨s, h1.1, h1.2, h2⟩
    · rintro ⟨s, h1, h2, h3⟩
      exact ⟨s, List.mem_filter.2 ⟨h1, decide_eq_true h2⟩, h3⟩

theorem largestLess_spec (k : Option V) (t : List (Option V × List (PageRec V))) (l : Option V)
    (h : largestLess k t = some l) : (∃ e ∈ t, e.1 = l) ∧ lt l k = true := by
  unfold largestLess at h
  rw [Option.map_eq_some_iff] at h
  obtain ⟨e, h1, h2⟩ := h
  have := List.mem_of_getLast? h1
  rw [List.mem_filter] at this
  subst h2
  exact ⟨⟨e, this.1, rfl⟩, this.2⟩

/-- A range whose upper bound lies below its lower bound. -/
def Inverted : Bd V → Bd V → Prop
  | .incl a, .incl b => lt b a = true
  | .incl a, .excl b => lt b a = true
  | .excl a, .incl b => lt b a = true
  | .excl a, .excl b => lt b a = true
  | _, _ => False

theorem pagesBetween_some (t : Lookup V) (lo hi : Bd V) (h : ¬ Inverted lo hi) :
    ∃ ps, pagesBetween t lo hi = some ps := by
  unfold pagesBetween
  simp only
  split
  · rename_i hp
    exfalso
    have key : ∀ a b l, largestLess (some a) t.tree = some l → lt (some b) l = true → lt b a = true := by
      intro a b l h1 h2
      have := (largestLess_spec _ _ _ h1).2
      have h3 := lt_trans h2 this
      exact h3
    have : ∃ a b, lowerKey t.tree lo = some a ∧ upperKey hi = some b ∧ lt b a = true := by
      revert hp
      cases lowerKey t.tree lo <;> cases upperKey hi <;> intro hp
      case some.some a b => exact ⟨a, b, rfl, rfl, hp⟩
      all_goals cases hp
    obtain ⟨l, u, hl, hu, hlt⟩ := this
    cases lo with
    | unb => cases hl
    | incl a =>
      cases hi with
      | unb => cases hu
      | incl b => cases hu; exact h (key a b l hl hlt)
      | excl b => cases hu; exact h (key a b l hl hlt)
    | excl a =>
      cases hi with
      | unb => cases hu
      | incl b => cases hu; exact h (key a b l hl hlt)
      | excl b => cases hu; exact h (key a b l hl hlt)
  · exact ⟨_, rfl⟩

theorem pagesBetween_sub {stats : List (Stat V)} {lo hi : Bd V} {ps : List Nat}
    (h : pagesBetween (loadLookup stats) lo hi = some ps) (p : Nat) (hp : p ∈ ps) :
    ∃ s ∈ stats, s.page = p := by
  unfold pagesBetween at h
  simp only at h
  split at h
  · cases h
  · simp only [Option.some.injEq] at h
    subst h
    rw [List.mem_map] at hp
    obtain ⟨r, hr, rfl⟩ := hp
    have hr' : r ∈ ((loadLookup stats).tree.filter
        (fun e => inKeys (lowerKey (loadLookup stats).tree lo) (upperKey hi) e.1)).flatMap (·.2) := by
      revert hr
      cases lowerKey (loadLookup stats).tree lo with
      | none => exact id
      | some a => intro hr; exact (List.mem_filter.1 hr).1
    rw [List.mem_flatMap] at hr'
    obtain ⟨e, he, hre⟩ := hr'
    obtain ⟨s, h1, _, _, h4⟩ := (tree_recs stats e.1 r).1 ⟨e, (List.mem_filter.1 he).1, rfl, hre⟩
    exact ⟨s, h1, by rw [h4]⟩

/-- A page is searched if its stats and the keys of the tree say that `x` may be in it. -/
theorem pagesBetween_mem {stats : List (Stat V)} {lo hi : Bd V} {ps : List Nat}
    (h : pagesBetween (loadLookup stats) lo hi = some ps) (x : V)
    (hlo : match lo with | .unb => True | .incl l => LinOrd.le l x = true | .excl l => LinOrd.le l x = true)
    (hhi : match hi with | .unb => True | .incl u => LinOrd.le x u = true | .excl u => LinOrd.le x u = true)
    (s : Stat V) (hs : s ∈ stats) (mn mx : V) (h1 : s.min = some mn) (h2 : s.max = some mx)
    (h3 : LinOrd.le mn x = true) (h4 : LinOrd.le x mx = true)
    (hk : ∀ k, IsKey stats k → lt s.min k = true → LinOrd.le (some x) k = true) : s.page ∈ ps := by
  have hlow : ∀ l, lowerKey (loadLookup stats).tree lo = some l →
      lt l (some x) = true ∧ LinOrd.le l s.min = true := by
    intro l hl
    have hspec : (∃ e ∈ (loadLookup stats).tree, e.1 = l) ∧ lt l (some x) = true := by
      cases lo with
      | unb => cases hl
      | incl a =>
        obtain ⟨a1, a2⟩ := largestLess_spec _ _ _ hl
        exact ⟨a1, lt_of_lt_of_le a2 hlo⟩
      | excl a =>
        obtain ⟨a1, a2⟩ := largestLess_spec _ _ _ hl
        exact ⟨a1, lt_of_lt_of_le a2 hlo⟩
    obtain ⟨⟨e, he, rfl⟩, hlt⟩ := hspec
    refine ⟨hlt, ?_⟩
    rcases LinOrd.total e.1 s.min with h5 | h5
    · exact h5
    · by_cases heq : s.min = e.1
      · rw [heq]; exact le_refl _
      · have := hk _ (tree_keys stats e he) (lt_of_le_ne h5 heq)
        exact absurd this ((lt_iff _ _).1 hlt)
  have hup : ∀ u, upperKey hi = some u → LinOrd.le s.min u = true := by
    intro u hu
    rw [h1]
    cases hi with
    | unb => cases hu
    | incl b => simp only [upperKey, Option.some.injEq] at hu; subst hu; exact LinOrd.trans mn x b h3 hhi
    | excl b => simp only [upperKey, Option.some.injEq] at hu; subst hu; exact LinOrd.trans mn x b h3 hhi
  unfold pagesBetween at h
  simp only at h
  split at h
  · cases h
  · simp only [Option.some.injEq] at h
    subst h
    rw [List.mem_map]
    obtain ⟨e, he, hek, her⟩ := (tree_recs stats s.min ⟨s.max, s.page⟩).2
      ⟨s, hs, by rw [h2]; simp, rfl, rfl⟩
    have hmem : (⟨s.max, s.page⟩ : PageRec V) ∈ ((loadLookup stats).tree.filter
        (fun e => inKeys (lowerKey (loadLookup stats).tree lo) (upperKey hi) e.1)).flatMap (·.2) := by
      rw [List.mem_flatMap]
      refine ⟨e, List.mem_filter.2 ⟨he, ?_⟩, her⟩
      rw [hek]
      unfold inKeys
      rw [Bool.and_eq_true]
      constructor
      · cases hl : lowerKey (loadLookup stats).tree lo with
        | none => rfl
        | some l => exact (hlow l hl).2
      · cases hu : upperKey hi with
        | none => rfl
        | some u => exact hup u hu
    refine ⟨⟨s.max, s.page⟩, ?_, rfl⟩
    revert hmem hlow
    generalize lowerKey (loadLookup stats).tree lo = L
    intro hlow hmem
    cases L with
    | none => exact hmem
    | some l =>
      refine List.mem_filter.2 ⟨hmem, ?_⟩
      have := lt_of_lt_of_le (hlow l rfl).1 (show LinOrd.le (some x) (some mx) = true from h4)
      have h6 := lt_asymm this
      show (!lt s.max l) = true
      rw [h2]
      simpa using h6

/-! ### What a search returns -/

/-- The files of the index hold the rows `rows` in such a way that a search finds them. -/
structure Covers (b : BTree V) (rows : List (Row V)) : Prop where
  sound : ∀ s ∈ b.lookup, ∀ r ∈ readPage b.bs b.file s.page, r ∈ rows
  value : ∀ x i, (some x, i) ∈ rows → ∃ s ∈ b.lookup, (some x, i) ∈ readPage b.bs b.file s.page ∧
    ∃ mn mx, s.min = some mn ∧ s.max = some mx ∧ LinOrd.le mn x = true ∧ LinOrd.le x mx = true ∧
      ∀ k, IsKey b.lookup k → lt s.min k = true → LinOrd.le (some x) k = true
  null : ∀ i, (none, i) ∈ rows → ∃ s ∈ b.lookup, (none, i) ∈ readPage b.bs b.file s.page ∧ 0 < s.nulls

theorem pagesEq_sub {stats : List (Stat V)} {w : Option V} {ps : List Nat}
    (h : pagesEq (loadLookup stats) w = some ps) (p : Nat) (hp : p ∈ ps) : ∃ s ∈ stats, s.page = p := by
  cases w with
  | none =>
    cases h
    obtain ⟨s, h1, _, h2⟩ := (null_pages stats p).1 hp
    exact ⟨s, h1, h2⟩
  | some x => exact pagesBetween_sub h p hp

theorem pagesEq_some (t : Lookup V) (w : Option V) : ∃ ps, pagesEq t w = some ps := by
  cases w with
  | none => exact ⟨_, rfl⟩
  | some x => exact pagesBetween_some t _ _ (lt_irrefl x)

theorem pagesIn_mem {t : Lookup V} {ws : List (Option V)} {ps : List Nat} (h : pagesIn t ws = some ps) (p : Nat) :
    p ∈ ps ↔ ∃ w ∈ ws, ∃ qs, pagesEq t w = some qs ∧ p ∈ qs := by
  unfold pagesIn at h
  rw [Option.map_eq_some_iff] at h
  obtain ⟨ls, h1, h2⟩ := h
  subst h2
  rw [allSome_some] at h1
  rw [mem_dedup, mem_sortBy, List.mem_flatten]
  constructor
  · rintro ⟨l, hl, hp⟩
    have : some l ∈ ws.map (pagesEq t) := by rw [h1]; exact List.mem_map_of_mem hl
    rw [List.mem_map] at this
    obtain ⟨w, hw, he⟩ := this
    exact ⟨w, hw, l, he, hp⟩
  · rintro ⟨w, hw, qs, hq, hp⟩
    have : pagesEq t w ∈ ls.map some := by rw [← h1]; exact List.mem_map_of_mem hw
    rw [hq, List.mem_map] at this
    obtain ⟨l, hl, he⟩ := this
    cases he
    exact ⟨_, hl, hp⟩

theorem pagesIn_some (t : Lookup V) (ws : List (Option V)) : ∃ ps, pagesIn t ws = some ps := by
  unfold pagesIn
  have : ∃ ls, allSome (ws.map (pagesEq t)) = some ls := by
    induction ws with
    | nil => exact ⟨[], rfl⟩
    | cons w ws ih =>
      obtain ⟨ls, hl⟩ := ih
      obtain ⟨ps, hp⟩ := pagesEq_some t w
      exact ⟨ps :: ls, by simp [allSome, hp, hl]⟩
  obtain ⟨ls, hl⟩ := this
  rw [hl]
  exact ⟨_, rfl⟩

theorem pagesFor_sub {stats : List (Stat V)} {q : Query V} {ps : List Nat}
    (h : pagesFor (loadLookup stats) q = some ps) (p : Nat) (hp : p ∈ ps) : ∃ s ∈ stats, s.page = p := by
  cases q with
  | equals w => exact pagesEq_sub h p hp
  | range lo hi => exact pagesBetween_sub h p hp
  | isNull =>
    cases h
    obtain ⟨s, h1, _, h2⟩ := (null_pages stats p).1 hp
    exact ⟨s, h1, h2⟩
  | isIn ws =>
    obtain ⟨w, _, qs, h1, h2⟩ := (pagesIn_mem h p).1 hp
    exact pagesEq_sub h1 p h2

theorem pagesEq_value {b : BTree V} {rows : List (Row V)} (hc : Covers b rows) (x : V) (i : Nat)
    (hr : (some x, i) ∈ rows) {ps : List Nat} (h : pagesEq (loadLookup b.lookup) (some x) = some ps) :
    ∃ p ∈ ps, (some x, i) ∈ readPage b.bs b.file p := by
  obtain ⟨s, h1, h2, mn, mx, h3, h4, h5, h6, h7⟩ := hc.value x i hr
  exact ⟨s.page, pagesBetween_mem h x (le_refl x) (le_refl x) s h1 mn mx h3 h4 h5 h6 h7, h2⟩

theorem pagesFor_mem {b : BTree V} {rows : List (Row V)} (hc : Covers b rows) {q : Query V} {ps : List Nat}
    (h : pagesFor (loadLookup b.lookup) q = some ps) (v : Option V) (i : Nat) (hr : (v, i) ∈ rows)
    (hk : flatKeep q v = true) : ∃ p ∈ ps, (v, i) ∈ readPage b.bs b.file p := by
  have hnull : ∀ i, (none, i) ∈ rows → ∃ p ∈ (loadLookup b.lookup).nullPages, (none, i) ∈ readPage b.bs b.file p := by
    intro i hi
    obtain ⟨s, h1, h2, h3⟩ := hc.null i hi
    exact ⟨s.page, (null_pages _ _).2 ⟨s, h1, h3, rfl⟩, h2⟩
  cases q with
  | equals w =>
    have : v = w := by simpa [flatKeep] using hk
    subst this
    cases v with
    | none => cases h; exact hnull i hr
    | some x => exact pagesEq_value hc x i hr h
  | isNull =>
    have : v = none := by simpa [flatKeep] using hk
    subst this
    cases h
    exact hnull i hr
  | range lo hi =>
    cases v with
    | none => simp [flatKeep] at hk
    | some x =>
      simp only [flatKeep, Bool.and_eq_true] at hk
      obtain ⟨s, h1, h2, mn, mx, h3, h4, h5, h6, h7⟩ := hc.value x i hr
      refine ⟨s.page, pagesBetween_mem h x ?_ ?_ s h1 mn mx h3 h4 h5 h6 h7, h2⟩
      · cases lo with
        | unb => trivial
        | incl l => exact hk.1
        | excl l => exact le_of_lt hk.1
      · cases hi with
        | unb => trivial
        | incl l => exact hk.2
        | excl l => exact le_of_lt hk.2
  | isIn ws =>
    cases v with
    | none => simp [flatKeep] at hk
    | some x =>
      have hx : some x ∈ ws := by simpa [flatKeep] using hk
      obtain ⟨qs, hq⟩ := pagesEq_some (loadLookup b.lookup) (some x)
      obtain ⟨p, h1, h2⟩ := pagesEq_value hc x i hr hq
      exact ⟨p, (pagesIn_mem h p).2 ⟨some x, hx, qs, hq, h1⟩, h2⟩

/-- A search returns exactly the covered rows that the flat filter keeps. -/
theorem search_covers {b : BTree V} {rows : List (Row V)} (hc : Covers b rows) (hr : ∀ r ∈ rows, r.2 < 2 ^ 64)
    {q : Query V} {m : TreeMap} (h : searchBTree b q = some m) (i : Nat) (hi : i < 2 ^ 64) :
    RowSet.contains m i = true ↔ ∃ v, (v, i) ∈ rows ∧ flatKeep q v = true := by
  unfold searchBTree at h
  cases hp : pagesFor (loadLookup b.lookup) q with
  | none => rw [hp] at h; cases h
  | some ps =>
    rw [hp] at h
    simp only [Option.map_eq_some_iff] at h
    obtain ⟨ms, h1, h2⟩ := h
    subst h2
    rw [allSome_some] at h1
    have hflat : ∀ p ∈ ps, ∀ t, flatSearch q (readPage b.bs b.file p) = some t →
        Plain t ∧ (RowSet.contains t i = true ↔
          ∃ v, (v, i) ∈ readPage b.bs b.file p ∧ flatKeep q v = true) := by
      intro p hpp t ht
      unfold flatSearch at ht
      split at ht
      · cases ht
      · cases ht
        refine ⟨plain_extendIds _ _ plain_nil, ?_⟩
        obtain ⟨s, hs, rfl⟩ := pagesFor_sub hp p hpp
        rw [contains_extendIds _ _ _ _ hi]
        · simp only [contains_nil, Bool.false_eq_true, false_or, List.mem_map]
          constructor
          · rintro ⟨⟨v, j⟩, hv, rfl⟩
            rw [List.mem_filter] at hv
            exact ⟨v, hv.1, hv.2⟩
          · rintro ⟨v, hv, hk⟩
            exact ⟨(v, i), List.mem_filter.2 ⟨hv, hk⟩, rfl⟩
        · intro j hj
          rw [List.mem_map] at hj
          obtain ⟨r, hrr, rfl⟩ := hj
          exact hr r (hc.sound s hs r (List.mem_filter.1 hrr).1)
    have hms : ∀ t ∈ ms, ∃ p ∈ ps, flatSearch q (readPage b.bs b.file p) = some t := by
      intro t ht
      have : some t ∈ ps.map (fun p => flatSearch q (readPage b.bs b.file p)) := by
        rw [h1]; exact List.mem_map_of_mem ht
      rw [List.mem_map] at this
      exact this
    rw [RowSet.contains_eq, RowSet.memAt_extendMaps]
    · simp only [← RowSet.contains_eq, contains_nil, Bool.false_eq_true, false_or]
      constructor
      · rintro ⟨t, ht, hct⟩
        obtain ⟨p, hpp, hf⟩ := hms t ht
        obtain ⟨v, hv, hk⟩ := ((hflat p hpp t hf).2).1 hct
        obtain ⟨s, hs, rfl⟩ := pagesFor_sub hp p hpp
        exact ⟨v, hc.sound s hs _ hv, hk⟩
      · rintro ⟨v, hv, hk⟩
        obtain ⟨p, hpp, hmem⟩ := pagesFor_mem hc hp v i hv hk
        have : flatSearch q (readPage b.bs b.file p) ∈ ms.map some := by
          rw [← h1]; exact List.mem_map.2 ⟨p, hpp, rfl⟩
        rw [List.mem_map] at this
        obtain ⟨t, ht, hf⟩ := this
        exact ⟨t, ht, ((hflat p hpp t hf.symm).2).2 ⟨v, hmem, hk⟩⟩
    · intro t ht
      obtain ⟨p, hpp, hf⟩ := hms t ht
      exact (hflat p hpp t hf).1.1

/-- Which queries panic. -/
theorem search_some (b : BTree V) (q : Query V) (h1 : q ≠ .range .unb .unb)
    (h2 : ∀ lo hi, q = .range lo hi → ¬ Inverted lo hi) : ∃ m, searchBTree b q = some m := by
  have hp : ∃ ps, pagesFor (loadLookup b.lookup) q = some ps := by
    cases q with
    | equals w => exact pagesEq_some _ w
    | range lo hi => exact pagesBetween_some _ lo hi (h2 lo hi rfl)
    | isNull => exact ⟨_, rfl⟩
    | isIn ws => exact pagesIn_some _ ws
  obtain ⟨ps, hp⟩ := hp
  have : ∃ ms, allSome (ps.map (fun p => flatSearch q (readPage b.bs b.file p))) = some ms := by
    generalize ps = l
    induction l with
    | nil => exact ⟨[], rfl⟩
    | cons p l ih =>
      obtain ⟨ms, hm⟩ := ih
      have hf : flatSearch q (readPage b.bs b.file p) = some (RowSet.extendIds []
          (((readPage b.bs b.file p).filter (fun r => flatKeep q r.1)).map (·.2))) := by
        unfold flatSearch
        split
        · rename_i hq
          exact absurd hq h1
        · rfl
      refine ⟨RowSet.extendIds []
          (((readPage b.bs b.file p).filter (fun r => flatKeep q r.1)).map (·.2)) :: ms, ?_⟩
      rw [List.map_cons, hf]
      simp only [allSome]
      rw [hm]
      rfl
  obtain ⟨ms, hm⟩ := this
  unfold searchBTree
  rw [hp]
  simp only
  rw [hm]
  exact ⟨_, rfl⟩

/-! ### Training -/

/-- Ordered by value, NULL first. -/
def Ordered (rows : List (Row V)) : Prop := rows.Pairwise (fun a b => LinOrd.le a.1 b.1 = true)

theorem mem_analyzeAll (n : Nat) (pages : List (List (Row V))) (s : Stat V) :
    s ∈ analyzeAll n pages ↔ ∃ k p, pages[k]? = some p ∧ s = analyze p (n + k) := by
  induction pages generalizing n with
  | nil => simp [analyzeAll]
  | cons p pages ih =>
    simp only [analyzeAll, List.mem_cons, ih]
    constructor
    · rintro (rfl | ⟨k, q, h1, rfl⟩)
      · exact ⟨0, p, rfl, rfl⟩
      · exact ⟨k + 1, q, by simpa using h1, by rw [Nat.add_assoc, Nat.add_comm 1 k]⟩
    · rintro ⟨k, q, h1, rfl⟩
      cases k with
      | zero => simp at h1; exact Or.inl (by rw [h1]; rfl)
      | succ k => exact Or.inr ⟨k, q, by simpa using h1, by rw [Nat.add_assoc, Nat.add_comm 1 k]⟩

theorem getLast?_analyzeAll (n : Nat) (pages : List (List (Row V))) :
    (analyzeAll n pages).getLast? = pages.getLast?.map (fun p => analyze p (n + (pages.length - 1))) := by
  induction pages generalizing n with
  | nil => rfl
  | cons p pages ih =>
    cases pages with
    | nil => rfl
    | cons q pages =>
      show (analyze p n :: analyze q (n + 1) :: analyzeAll (n + 1 + 1) pages).getLast? = _
      rw [List.getLast?_cons_cons, List.getLast?_cons_cons]
      have := ih (n + 1)
      simp only [analyzeAll] at this
      rw [this]
      simp only [List.length_cons]
      congr 1
      funext p
      congr 1
      omega

theorem length_analyzeAll (n : Nat) (pages : List (List (Row V))) : (analyzeAll n pages).length = pages.length := by
  induction pages generalizing n with
  | nil => rfl
  | cons p pages ih => simp [analyzeAll, ih]

/-- Pages in order. -/
def POrd (pages : List (List (Row V))) : Prop :=
  pages.Pairwise (fun p q => ∀ a ∈ p, ∀ b ∈ q, LinOrd.le a.1 b.1 = true)

omit [DecidableEq V] in
theorem pOrd_of (pages : List (List (Row V))) (h : Ordered pages.flatten) : POrd pages := by
  unfold Ordered at h
  rw [List.pairwise_flatten] at h
  exact h.2

omit [DecidableEq V] in
theorem pOrd_get {pages : List (List (Row V))} (h : POrd pages) {j k : Nat} {p q : List (Row V)}
    (hp : pages[j]? = some p) (hq : pages[k]? = some q) (hjk : j < k) :
    ∀ a ∈ p, ∀ b ∈ q, LinOrd.le a.1 b.1 = true := by
  unfold POrd at h
  rw [List.pairwise_iff_getElem] at h
  rw [List.getElem?_eq_some_iff] at hp hq
  obtain ⟨h1, rfl⟩ := hp
  obtain ⟨h2, rfl⟩ := hq
  exact h j k h1 h2 hjk

/-- The keys of the tree never lie inside a page that begins before them. -/
theorem keys_ok {pages : List (List (Row V))} (h : POrd pages) {j : Nat} {p : List (Row V)}
    (hp : pages[j]? = some p) (x : V) (i : Nat) (hx : (some x, i) ∈ p) (k : Option V)
    (hk : IsKey (analyzeAll 0 pages) k) (hlt : lt (minVal (p.map (·.1))) k = true) :
    LinOrd.le (some x) k = true := by
  rcases hk with ⟨s, hs, hmax, rfl⟩ | ⟨s, hs, rfl⟩
  · obtain ⟨k, q, hq, rfl⟩ := (mem_analyzeAll _ _ _).1 hs
    simp only [analyze] at hlt hmax ⊢
    cases hm : minVal (q.map (·.1)) with
    | none => rw [hm] at hlt; exact absurd hlt (not_lt_none _)
    | some mq =>
      rw [hm] at hlt
      have hmem := minVal_mem _ _ hm
      rw [List.mem_map] at hmem
      obtain ⟨⟨v, i'⟩, hr, hv⟩ := hmem
      simp only at hv; subst hv
      have hmnp : ∃ mp, minVal (p.map (·.1)) = some mp ∧ LinOrd.le mp x = true :=
        minVal_spec _ x (List.mem_map.2 ⟨_, hx, rfl⟩)
      rcases Nat.lt_trichotomy j k with hlt' | heq | hgt
      · exact pOrd_get h hp hq hlt' _ hx _ hr
      · subst heq
        rw [hp] at hq; cases hq
        rw [hm] at hlt
        exact absurd hlt (lt_irrefl _)
      · -- page `q` comes first, then its least value is at most the least of `p`
        exfalso
        obtain ⟨mp, h1, _⟩ := hmnp
        have hmp := minVal_mem _ _ h1
        rw [List.mem_map] at hmp
        obtain ⟨⟨v, i''⟩, hr', hv⟩ := hmp
        simp only at hv; subst hv
        have := pOrd_get h hq hp hgt _ hr _ hr'
        rw [h1] at hlt
        exact ((lt_iff _ _).1 hlt) this
  · rw [getLast?_analyzeAll] at hs
    rw [Option.map_eq_some_iff] at hs
    obtain ⟨q, hq, rfl⟩ := hs
    simp only [analyze] at hlt ⊢
    have hq' : pages[pages.length - 1]? = some q := by rw [← List.getLast?_eq_getElem?]; exact hq
    have hj : j < pages.length := (List.getElem?_eq_some_iff.1 hp).1
    cases hm : maxVal (q.map (·.1)) with
    | none => rw [hm] at hlt; exact absurd hlt (not_lt_none _)
    | some mq =>
      have hmem := maxVal_mem _ _ hm
      rw [List.mem_map] at hmem
      obtain ⟨⟨v, i'⟩, hr, hv⟩ := hmem
      simp only at hv; subst hv
      by_cases hjl : j = pages.length - 1
      · rw [← hjl] at hq'
        rw [hp] at hq'; cases hq'
        obtain ⟨m', h1, h2⟩ := maxVal_spec (p.map (·.1)) x (List.mem_map.2 ⟨_, hx, rfl⟩)
        rw [hm] at h1
        cases h1
        exact h2
      · exact pOrd_get h hp hq' (by omega) _ hx _ hr

theorem chunk_pages (stream : List (List (Row V))) (bs : Nat) (hb : 0 < bs) :
    let pages := Chunk.chunkConcatStream stream bs
    pages.flatten = stream.flatten ∧ ∀ k p, pages[k]? = some p → readPage bs stream.flatten k = p ∧ p ≠ [] := by
  obtain ⟨h1, h2⟩ := Chunk.C29_chunk_concat stream bs hb
  refine ⟨h1, ?_⟩
  intro k p hp
  obtain ⟨h3, h4, _⟩ := h2 k p hp
  exact ⟨h3.symm, h4⟩

/-- Search information of one page that is stored where the lookup says. -/
theorem covers_of {b : BTree V} {rows : List (Row V)} {pages : List (List (Row V))} (hl : b.lookup = analyzeAll 0 pages)
    (hord : POrd pages)
    (hsound : ∀ k, k < pages.length → ∀ r ∈ readPage b.bs b.file k, r ∈ rows)
    (hfind : ∀ r ∈ rows, ∃ k p, pages[k]? = some p ∧ r ∈ readPage b.bs b.file k ∧ ∃ r' ∈ p, r'.1 = r.1) :
    Covers b rows := by
  refine ⟨?_, ?_, ?_⟩
  · intro s hs r hr
    rw [hl] at hs
    obtain ⟨k, p, hk, rfl⟩ := (mem_analyzeAll _ _ _).1 hs
    exact hsound k (List.getElem?_eq_some_iff.1 hk).1 r (by simpa [analyze] using hr)
  · intro x i hr
    obtain ⟨k, p, hk, hread, ⟨v, i'⟩, hr', hv⟩ := hfind _ hr
    simp only at hv; subst hv
    obtain ⟨mn, h1, h2⟩ := minVal_spec (p.map (·.1)) x (List.mem_map.2 ⟨_, hr', rfl⟩)
    obtain ⟨mx, h3, h4⟩ := maxVal_spec (p.map (·.1)) x (List.mem_map.2 ⟨_, hr', rfl⟩)
    refine ⟨analyze p (0 + k), by rw [hl]; exact (mem_analyzeAll _ _ _).2 ⟨k, p, hk, rfl⟩, ?_, mn, mx, h1, h3, h2, h4, ?_⟩
    · simpa [analyze] using hread
    · intro key hkey hlt
      rw [hl] at hkey
      exact keys_ok hord hk x i' hr' key hkey hlt
  · intro i hr
    obtain ⟨k, p, hk, hread, ⟨v, i'⟩, hr', hv⟩ := hfind _ hr
    simp only at hv; subst hv
    refine ⟨analyze p (0 + k), by rw [hl]; exact (mem_analyzeAll _ _ _).2 ⟨k, p, hk, rfl⟩, ?_, ?_⟩
    · simpa [analyze] using hread
    · simp only [analyze]
      exact List.length_pos_of_mem (List.mem_filter.2 ⟨hr', by simp⟩)

theorem covers_train (bs : Nat) (hb : 0 < bs) (stream : List (List (Row V))) (hs : Ordered stream.flatten) :
    Covers (trainBTree bs stream) stream.flatten := by
  obtain ⟨h1, h2⟩ := chunk_pages stream bs hb
  have hfile : (trainBTree bs stream).file = stream.flatten := h1
  refine covers_of (pages := Chunk.chunkConcatStream stream bs) rfl (pOrd_of _ (by rw [h1]; exact hs)) ?_ ?_
  · intro k _ r hr
    rw [hfile] at hr
    exact List.mem_of_mem_drop (List.mem_of_mem_take hr)
  · intro r hr
    rw [← h1, List.mem_flatten] at hr
    obtain ⟨p, hp, hrp⟩ := hr
    obtain ⟨k, hk⟩ := List.getElem?_of_mem hp
    refine ⟨k, p, hk, ?_, r, hrp, rfl⟩
    rw [hfile]
    show r ∈ readPage bs stream.flatten k
    rw [(h2 k p hk).1]
    exact hrp

end Verif.Scalar
