import Verif.Compact.Model
/-!
# C25: compaction planning
-/
namespace Verif.Compact

/-- The tasks are disjoint runs of adjacent fragments of the list, in order: the list is the tasks with gaps
between them. -/
inductive Runs : List FM → List (List FM) → Prop
  | nil (rest : List FM) : Runs rest []
  | cons (gap t : List FM) {rest : List FM} {ts : List (List FM)} : t ≠ [] → Runs rest ts → Runs (gap ++ t ++ rest) (t :: ts)

/-- A fragment to rewrite by itself: deletions are to be materialised and it has enough of them. -/
def Itself (o : Opts) (f : FM) : Prop := o.materialize = true ∧ o.over f.dels f.phys = true

/-- A fragment worth rewriting at all. -/
def Worth (o : Opts) (f : FM) : Prop := Itself o f ∨ f.phys < o.target

/-- Two fragments covered by the same indices. -/
def SameCover (maps : List Bm) (f g : FM) : Prop := ∀ m ∈ maps, f.id % 4294967296 ∈ m ↔ g.id % 4294967296 ∈ m

theorem candidacy_itself (o : Opts) (f : FM) : o.candidacy f = some .itself ↔ Itself o f := by
  unfold Opts.candidacy Itself
  split
  · rename_i h; simp only [Bool.and_eq_true] at h; simp [h]
  · rename_i h
    simp only [Bool.and_eq_true] at h
    split <;> simp [h]

theorem candidacy_worth (o : Opts) (f : FM) : (∃ c, o.candidacy f = some c) ↔ Worth o f := by
  unfold Opts.candidacy Worth Itself
  split
  · rename_i h; simp only [Bool.and_eq_true] at h; simp [h]
  · rename_i h
    simp only [Bool.and_eq_true] at h
    split <;> rename_i h2 <;> simp [h, h2]

theorem indicesOf_eq {maps : List Bm} {f g : FM} (h : indicesOf maps f.id = indicesOf maps g.id) :
    SameCover maps f g := by
  intro m hm
  obtain ⟨i, hi, rfl⟩ := List.mem_iff_getElem.1 hm
  have key : ∀ x : FM, i ∈ indicesOf maps x.id ↔ x.id % 4294967296 ∈ maps[i] := by
    intro x
    simp only [indicesOf, List.mem_map, List.mem_filter, Bm.has_iff]
    constructor
    · rintro ⟨⟨b, j⟩, ⟨h1, h2⟩, h3⟩
      have h3' : j = i := h3
      subst h3'
      have := List.mem_zipIdx_iff_getElem?.1 h1
      rw [List.getElem?_eq_getElem hi] at this
      cases this
      exact h2
    · intro hx
      exact ⟨(maps[i], i), ⟨List.mem_zipIdx_iff_getElem?.2 (List.getElem?_eq_getElem hi), hx⟩, rfl⟩
  rw [← key f, ← key g, h]

/-! ## Bins -/

/-- What is known of a bin. -/
structure BinOk (o : Opts) (maps : List Bm) (b : Bin) : Prop where
  ne : b.items ≠ []
  cand : ∀ x ∈ b.items, o.candidacy x.1 = some x.2
  idx : ∀ x ∈ b.items, indicesOf maps x.1.id = b.indices

theorem bin_one (o : Opts) (maps : List Bm) {f : FM} {c : Cand} (h : o.candidacy f = some c) :
    BinOk o maps ⟨[(f, c)], indicesOf maps f.id⟩ :=
  ⟨by simp, by simpa using h, by simp⟩

theorem bin_push (o : Opts) (maps : List Bm) {b : Bin} (hb : BinOk o maps b) {f : FM} {c : Cand}
    (h : o.candidacy f = some c) (hi : b.indices = indicesOf maps f.id) :
    BinOk o maps { b with items := b.items ++ [(f, c)] } := by
  refine ⟨by simp, ?_, ?_⟩
  · intro x hx
    rcases List.mem_append.1 hx with hx | hx
    · exact hb.cand x hx
    · simp only [List.mem_singleton] at hx; subst hx; exact h
  · intro x hx
    rcases List.mem_append.1 hx with hx | hx
    · exact hb.idx x hx
    · simp only [List.mem_singleton] at hx; subst hx; exact hi.symm

theorem bins_ok (o : Opts) (maps : List Bm) : ∀ (fs : List FM) (cur : Option Bin),
    (∀ b ∈ cur, BinOk o maps b) → ∀ b ∈ binsFrom o maps cur fs, BinOk o maps b
  | [], cur, h => by
    intro b hb
    cases cur with
    | none => cases hb
    | some c => simp only [binsFrom, Option.toList_some, List.mem_singleton] at hb; subst hb; exact h b rfl
  | f :: fs, cur, h => by
    intro b hb
    unfold binsFrom at hb
    split at hb
    · exact bins_ok o maps fs none (by simp) b hb
    · rename_i c _ hc
      exact bins_ok o maps fs _ (by rintro _ ⟨⟩; exact bin_one o maps hc) b hb
    · rename_i c b' hc
      have hb' := h b' rfl
      split at hb
      · rename_i hi
        exact bins_ok o maps fs _ (by rintro _ ⟨⟩; exact bin_push o maps hb' hc hi) b hb
      · rcases List.mem_cons.1 hb with rfl | hb
        · exact hb'
        · exact bins_ok o maps fs _ (by rintro _ ⟨⟩; exact bin_one o maps hc) b hb
    · rename_i b' hc
      rcases List.mem_cons.1 hb with rfl | hb
      · exact h b rfl
      · exact bins_ok o maps fs none (by simp) b hb

theorem Runs.gap {fs : List FM} {ts : List (List FM)} (g : List FM) (h : Runs fs ts) : Runs (g ++ fs) ts := by
  cases h with
  | nil => exact .nil _
  | cons gap t hne hr =>
    have := Runs.cons (g ++ gap) t hne hr
    simpa [List.append_assoc] using this

theorem bins_runs (o : Opts) (maps : List Bm) : ∀ (fs : List FM) (cur : Option Bin),
    (∀ b ∈ cur, b.items ≠ []) →
    Runs ((cur.map Bin.frags).getD [] ++ fs) ((binsFrom o maps cur fs).map Bin.frags)
  | [], cur, h => by
    cases cur with
    | none => exact .nil _
    | some b =>
      have hne : b.frags ≠ [] := by simpa [Bin.frags] using h b rfl
      have := Runs.cons [] b.frags hne (.nil [])
      simpa [binsFrom] using this
  | f :: fs, cur, h => by
    have flush : ∀ (b : Bin) (ts : List (List FM)), b.items ≠ [] → Runs (f :: fs) ts →
        Runs (b.frags ++ f :: fs) (b.frags :: ts) := by
      intro b ts hb hr
      have hne : b.frags ≠ [] := by simpa [Bin.frags] using hb
      simpa using Runs.cons [] b.frags hne hr
    unfold binsFrom
    split
    · exact (bins_runs o maps fs none (by simp)).gap [f]
    · rename_i c hc
      have := bins_runs o maps fs (some ⟨[(f, c)], indicesOf maps f.id⟩) (by rintro _ ⟨⟩; simp)
      simpa [Bin.frags] using this
    · rename_i c b hc
      split
      · have := bins_runs o maps fs (some { b with items := b.items ++ [(f, c)] }) (by rintro _ ⟨⟩; simp)
        simpa [Bin.frags] using this
      · have := bins_runs o maps fs (some ⟨[(f, c)], indicesOf maps f.id⟩) (by rintro _ ⟨⟩; simp)
        refine flush b _ (h b rfl) ?_
        simpa [Bin.frags] using this
    · rename_i b hc
      exact flush b _ (h b rfl) ((bins_runs o maps fs none (by simp)).gap [f])

/-! ## Splitting -/

theorem binLen_le (min : Nat) : ∀ (acc : Nat) (rs : List Nat), binLen min acc rs ≤ rs.length
  | _, [] => Nat.le_refl _
  | acc, r :: rs => by
    simp only [binLen]
    split
    · have := binLen_le min (acc + r) rs; simpa using this
    · simp

theorem binLen_sum (min : Nat) : ∀ (acc : Nat) (rs : List Nat), binLen min acc rs < rs.length →
    min ≤ acc + (rs.take (binLen min acc rs)).sum
  | acc, [], h => by simp at h
  | acc, r :: rs, h => by
    simp only [binLen] at h ⊢
    split
    · rename_i hlt
      rw [if_pos hlt] at h
      have := binLen_sum min (acc + r) rs (by simpa using h)
      simp only [List.take_succ_cons, List.sum_cons]
      omega
    · simp; omega

/-- With a positive size the loop ends, and its parts concatenate to the bin; several parts have at least that
many rows each. -/
theorem splitGo_spec (min : Nat) (hmin : 0 < min) : ∀ (fuel : Nat) (xs : List (FM × Cand)), xs.length < fuel →
    ∃ parts, splitGo min fuel xs = some parts ∧ parts.flatten = xs ∧ parts ≠ [] ∧
      (parts = [xs] ∨ ∀ p ∈ parts, min ≤ (p.map (·.1.live)).sum)
  | 0, _, h => by omega
  | fuel + 1, xs, h => by
    simp only [splitGo]
    split
    · rename_i hs
      have hlen : binLen min 0 (xs.map (·.1.live)) < (xs.map (·.1.live)).length := by
        have h1 := binLen_le min 0 (xs.map (·.1.live))
        rcases Nat.lt_or_ge (binLen min 0 (xs.map (·.1.live))) (xs.map (·.1.live)).length with h2 | h2
        · exact h2
        · rw [List.drop_eq_nil_of_le h2] at hs
          simp at hs; omega
      have hsum := binLen_sum min 0 _ hlen
      have hpos : 0 < binLen min 0 (xs.map (·.1.live)) := by
        rcases Nat.eq_zero_or_pos (binLen min 0 (xs.map (·.1.live))) with h0 | h0
        · rw [h0] at hsum; simp at hsum; omega
        · exact h0
      have hlen' : binLen min 0 (xs.map (·.1.live)) < xs.length := by simpa using hlen
      obtain ⟨parts, h1, h2, h3, h4⟩ := splitGo_spec min hmin fuel (xs.drop (binLen min 0 (xs.map (·.1.live))))
        (by rw [List.length_drop]; omega)
      rw [h1]
      refine ⟨_, rfl, by simp [h2], by simp, .inr ?_⟩
      intro p hp
      rcases List.mem_cons.1 hp with rfl | hp
      · rw [List.map_take]; simpa using hsum
      · rcases h4 with h4 | h4
        · rw [h4] at hp
          simp only [List.mem_singleton] at hp
          subst hp
          rw [List.map_drop]; exact hs
        · exact h4 p hp
    · exact ⟨_, rfl, by simp, by simp, .inl rfl⟩

theorem splitGo_zero (fuel : Nat) : ∀ xs, splitGo 0 fuel xs = none := by
  induction fuel with
  | zero => intro xs; rfl
  | succ n ih => intro xs; simp [splitGo, ih]

theorem Runs.cut {parts : List (List FM)} {rest : List FM} {ts : List (List FM)} (gap : List FM)
    (h : ∀ p ∈ parts, p ≠ []) (hr : Runs rest ts) : Runs (gap ++ parts.flatten ++ rest) (parts ++ ts) := by
  induction parts generalizing gap with
  | nil => simpa using hr.gap gap
  | cons p ps ih =>
    have := Runs.cons gap p (h p (List.mem_cons_self ..)) (ih [] (fun q hq => h q (List.mem_cons_of_mem _ hq)))
    simpa [List.append_assoc] using this

/-! ## The plan -/

/-- The parts of one bin. -/
def PartOf (o : Opts) (b : Bin) (parts : List (List FM)) : Prop :=
  parts.flatten = b.frags ∧ parts ≠ [] ∧ (parts = [b.frags] ∨ ∀ p ∈ parts, o.target ≤ (p.map FM.live).sum)

theorem splitAll_spec (min : Nat) (hmin : 0 < min) (fuel : Nat) : ∀ (bs : List Bin),
    (∀ b ∈ bs, b.items.length < fuel) →
    ∃ pss : List (List (List FM)), splitAll min fuel bs = some pss.flatten ∧ pss.length = bs.length ∧
      ∀ x ∈ bs.zip pss, (x.2.flatten = x.1.frags ∧ x.2 ≠ [] ∧ (x.2 = [x.1.frags] ∨ ∀ p ∈ x.2, min ≤ (p.map FM.live).sum))
  | [], _ => ⟨[], rfl, rfl, by simp⟩
  | b :: bs, h => by
    obtain ⟨pss, h1, h2, h3⟩ := splitAll_spec min hmin fuel bs (fun x hx => h x (List.mem_cons_of_mem _ hx))
    obtain ⟨parts, e1, e2, e3, e4⟩ := splitGo_spec min hmin fuel b.items (h b (List.mem_cons_self ..))
    refine ⟨parts.map (fun p => p.map (·.1)) :: pss, by simp [splitAll, e1, h1], by simp [h2], ?_⟩
    intro x hx
    rcases List.mem_cons.1 hx with rfl | hx
    · refine ⟨?_, by simpa using e3, ?_⟩
      · show (parts.map (fun p => p.map (·.1))).flatten = b.items.map (·.1)
        rw [← List.map_flatten, e2]
      · rcases e4 with e4 | e4
        · left; rw [e4]; rfl
        · right
          intro p hp
          obtain ⟨q, hq, rfl⟩ := List.mem_map.1 hp
          have := e4 q hq
          rw [List.map_map]; exact this
    · exact h3 x hx

theorem bins_len (o : Opts) (maps : List Bm) : ∀ (fs : List FM) (cur : Option Bin),
    ∀ b ∈ binsFrom o maps cur fs, b.items.length ≤ (cur.map (fun b => b.items.length)).getD 0 + fs.length
  | [], cur, b, hb => by
    cases cur with
    | none => cases hb
    | some c => simp only [binsFrom, Option.toList_some, List.mem_singleton] at hb; subst hb; simp
  | f :: fs, cur, b, hb => by
    unfold binsFrom at hb
    split at hb
    · have := bins_len o maps fs none b hb; simp at this ⊢; omega
    · have := bins_len o maps fs _ b hb; simp at this ⊢; omega
    · split at hb
      · have := bins_len o maps fs _ b hb; simp at this ⊢; omega
      · rcases List.mem_cons.1 hb with rfl | hb
        · simp
        · have := bins_len o maps fs _ b hb; simp at this ⊢; omega
    · rcases List.mem_cons.1 hb with rfl | hb
      · simp
      · have := bins_len o maps fs none b hb; simp at this ⊢; omega

theorem runs_filter {α : Type} (fr : α → List FM) (p : α → Bool) : ∀ (bs : List α) (fs : List FM),
    Runs fs (bs.map fr) → Runs fs ((bs.filter p).map fr)
  | [], fs, h => h
  | b :: bs, fs, h => by
    cases h with
    | @cons gap t rest ts hne hr =>
      have ih := runs_filter fr p bs rest hr
      cases hp : p b with
      | true => rw [List.filter_cons_of_pos hp]; exact .cons gap _ hne ih
      | false => rw [List.filter_cons_of_neg (by simp [hp])]; exact ih.gap _

theorem runs_split : ∀ (bs : List (List FM)) (pss : List (List (List FM))) (fs : List FM), Runs fs bs →
    pss.length = bs.length → (∀ x ∈ bs.zip pss, x.2.flatten = x.1 ∧ ∀ p ∈ x.2, p ≠ []) → Runs fs pss.flatten
  | [], [], fs, h, _, _ => h
  | [], _ :: _, _, _, hl, _ => by simp at hl
  | _ :: _, [], _, _, hl, _ => by simp at hl
  | b :: bs, ps :: pss, fs, h, hl, hx => by
    cases h with
    | @cons gap t rest ts hne hr =>
      have ih := runs_split bs pss rest hr (by simpa using hl) (fun x h => hx x (List.mem_cons_of_mem _ h))
      obtain ⟨h1, h2⟩ := hx (b, ps) (List.mem_cons_self ..)
      have := Runs.cut gap h2 ih
      rw [h1] at this
      exact this

/-- Everything the planner guarantees, for a positive target. -/
theorem plan_spec (o : Opts) (maps : List Bm) (fs : List FM) (ht : 0 < o.target) :
    ∃ pss : List (List (List FM)),
      plan o maps (fs.length + 1) fs = some pss.flatten ∧
      pss.length = ((binsFrom o maps none fs).filter (fun b => !b.noop)).length ∧
      ∀ x ∈ ((binsFrom o maps none fs).filter (fun b => !b.noop)).zip pss, PartOf o x.1 x.2 :=
  splitAll_spec o.target ht (fs.length + 1) _ (fun b hb => by
    have := bins_len o maps fs none b (List.mem_filter.1 hb).1
    simp at this; omega)

theorem mem_zip_of_mem_right {α β : Type} : ∀ (as : List α) (bs : List β), bs.length = as.length → ∀ b ∈ bs,
    ∃ a ∈ as, (a, b) ∈ as.zip bs
  | [], [], _, b, hb => by cases hb
  | [], _ :: _, hl, _, _ => by simp at hl
  | _ :: _, [], hl, _, _ => by simp at hl
  | a :: as, c :: bs, hl, b, hb => by
    rcases List.mem_cons.1 hb with rfl | hb
    · exact ⟨a, by simp, by simp⟩
    · obtain ⟨a', h1, h2⟩ := mem_zip_of_mem_right as bs (by simpa using hl) b hb
      exact ⟨a', List.mem_cons_of_mem _ h1, List.mem_cons_of_mem _ h2⟩

theorem mem_zip_of_mem_left {α β : Type} : ∀ (as : List α) (bs : List β), bs.length = as.length → ∀ a ∈ as,
    ∃ b ∈ bs, (a, b) ∈ as.zip bs
  | [], _, _, a, ha => by cases ha
  | _ :: _, [], hl, _, _ => by simp at hl
  | a :: as, c :: bs, hl, x, hx => by
    rcases List.mem_cons.1 hx with rfl | hx
    · exact ⟨c, by simp, by simp⟩
    · obtain ⟨b', h1, h2⟩ := mem_zip_of_mem_left as bs (by simpa using hl) x hx
      exact ⟨b', List.mem_cons_of_mem _ h1, List.mem_cons_of_mem _ h2⟩

/-- The parts of a bin are not empty. -/
theorem part_ne {o : Opts} {maps : List Bm} {b : Bin} (hb : BinOk o maps b) (ht : 0 < o.target)
    {parts : List (List FM)} (h : PartOf o b parts) : ∀ p ∈ parts, p ≠ [] := by
  intro p hp he
  subst he
  rcases h.2.2 with h3 | h3
  · rw [h3] at hp
    simp only [List.mem_singleton] at hp
    exact hb.ne (by simpa [Bin.frags] using hp.symm)
  · have := h3 [] hp
    simp at this; omega

/-- C25: tasks are disjoint runs of adjacent fragments, in dataset order. -/
theorem C25_runs (o : Opts) (maps : List Bm) (fs : List FM) (ht : 0 < o.target) :
    ∃ ts, plan o maps (fs.length + 1) fs = some ts ∧ Runs fs ts := by
  obtain ⟨pss, h1, h2, h3⟩ := plan_spec o maps fs ht
  refine ⟨_, h1, ?_⟩
  have hr : Runs fs ((binsFrom o maps none fs).map Bin.frags) := by
    simpa using bins_runs o maps fs none (by simp)
  have hr2 := runs_filter Bin.frags (fun b => !b.noop) _ fs hr
  refine runs_split _ pss fs hr2 (by simpa using h2) ?_
  intro x hx
  rw [List.zip_map_left] at hx
  obtain ⟨y, hy, rfl⟩ := List.mem_map.1 hx
  have hp := h3 y hy
  have hb : y.1 ∈ binsFrom o maps none fs := (List.mem_filter.1 (List.of_mem_zip hy).1).1
  exact ⟨hp.1, part_ne (bins_ok o maps fs none (by simp) _ hb) ht hp⟩

theorem task_bin {o : Opts} {maps : List Bm} {fs : List FM} (ht : 0 < o.target) {ts : List (List FM)}
    (h : plan o maps (fs.length + 1) fs = some ts) {t : List FM} (hm : t ∈ ts) :
    ∃ b ∈ binsFrom o maps none fs, b.noop = false ∧ BinOk o maps b ∧
      ∃ parts, PartOf o b parts ∧ t ∈ parts := by
  obtain ⟨pss, h1, h2, h3⟩ := plan_spec o maps fs ht
  rw [h1] at h
  cases h
  obtain ⟨parts, hp, ht'⟩ := List.mem_flatten.1 hm
  obtain ⟨b, hb, hz⟩ := mem_zip_of_mem_right _ pss h2 parts hp
  have hb' := List.mem_filter.1 hb
  exact ⟨b, hb'.1, by simpa using hb'.2, bins_ok o maps fs none (by simp) b hb'.1, parts, h3 _ hz, ht'⟩

theorem task_item {o : Opts} {b : Bin} {parts : List (List FM)} (hp : PartOf o b parts) {t : List FM} (ht : t ∈ parts)
    {f : FM} (hf : f ∈ t) : ∃ c, (f, c) ∈ b.items := by
  have : f ∈ b.frags := by rw [← hp.1]; exact List.mem_flatten.2 ⟨t, ht, hf⟩
  simp only [Bin.frags, List.mem_map] at this
  obtain ⟨⟨g, c⟩, hx, rfl⟩ := this
  exact ⟨c, hx⟩

/-- C25: all fragments of a task are covered by the same indices. -/
theorem C25_same_cover (o : Opts) (maps : List Bm) (fs : List FM) (ht : 0 < o.target) (ts : List (List FM))
    (h : plan o maps (fs.length + 1) fs = some ts) (t : List FM) (hm : t ∈ ts) (f g : FM) (hf : f ∈ t) (hg : g ∈ t) :
    SameCover maps f g := by
  obtain ⟨b, _, _, hok, parts, hp, htp⟩ := task_bin ht h hm
  obtain ⟨c, hc⟩ := task_item hp htp hf
  obtain ⟨d, hd⟩ := task_item hp htp hg
  exact indicesOf_eq ((hok.idx _ hc).trans (hok.idx _ hd).symm)

/-- C25: only fragments worth rewriting are rewritten. -/
theorem C25_worth (o : Opts) (maps : List Bm) (fs : List FM) (ht : 0 < o.target) (ts : List (List FM))
    (h : plan o maps (fs.length + 1) fs = some ts) (t : List FM) (hm : t ∈ ts) (f : FM) (hf : f ∈ t) : Worth o f := by
  obtain ⟨b, _, _, hok, parts, hp, htp⟩ := task_bin ht h hm
  obtain ⟨c, hc⟩ := task_item hp htp hf
  exact (candidacy_worth o f).1 ⟨c, hok.cand _ hc⟩

/-- C25: no task merely rewrites a single fragment that needs nothing. -/
theorem C25_single (o : Opts) (maps : List Bm) (fs : List FM) (ht : 0 < o.target) (ts : List (List FM))
    (h : plan o maps (fs.length + 1) fs = some ts) (f : FM) (hm : [f] ∈ ts) : Itself o f := by
  obtain ⟨b, _, hn, hok, parts, hp, htp⟩ := task_bin ht h hm
  obtain ⟨c, hc⟩ := task_item hp htp (List.mem_singleton.2 rfl)
  have hcand := hok.cand _ hc
  have hbig : o.target ≤ f.live → Itself o f := by
    intro hl
    have hlive : f.live ≤ f.phys := Nat.sub_le _ _
    rcases (candidacy_worth o f).1 ⟨c, hcand⟩ with hw | hw
    · exact hw
    · omega
  rcases hp.2.2 with h3 | h3
  · rw [h3] at htp
    simp only [List.mem_singleton] at htp
    -- the whole bin is this fragment
    match hi : b.items with
    | [] => rw [hi] at hc; cases hc
    | [x] =>
      rw [hi] at hc
      simp only [List.mem_singleton] at hc
      have : b.noop = (x.2 == .neighbors) := by simp [Bin.noop, hi]
      rw [this, ← hc] at hn
      cases c with
      | neighbors => simp at hn
      | itself => exact (candidacy_itself o f).1 hcand
    | x :: y :: r =>
      simp [Bin.frags, hi] at htp
  · have := h3 _ htp
    exact hbig (by simpa using this)

/-- C25: a task with fewer rows than the target is a whole bin; when a bin is split, every part reaches the
target. -/
theorem C25_sizes (o : Opts) (maps : List Bm) (fs : List FM) (ht : 0 < o.target) (ts : List (List FM))
    (h : plan o maps (fs.length + 1) fs = some ts) (t : List FM) (hm : t ∈ ts) :
    o.target ≤ (t.map FM.live).sum ∨ ∃ b ∈ binsFrom o maps none fs, t = b.frags := by
  obtain ⟨b, hb, hn, hok, parts, hp, htp⟩ := task_bin ht h hm
  rcases hp.2.2 with h3 | h3
  · rw [h3] at htp
    simp only [List.mem_singleton] at htp
    exact .inr ⟨b, hb, htp⟩
  · exact .inl (h3 _ htp)

/-- `binLen` takes no fragment after the target is reached. -/
theorem binLen_min (min : Nat) : ∀ (acc : Nat) (l : List Nat) (k : Nat), k ≤ l.length →
    min ≤ acc + (l.take k).sum → binLen min acc l ≤ k
  | _, [], _, _, _ => by simp [binLen]
  | acc, r :: rs, 0, _, h => by
    simp only [List.take_zero, List.sum_nil, Nat.add_zero] at h
    simp only [binLen]
    rw [if_neg (by omega)]
    exact Nat.le_refl _
  | acc, r :: rs, k + 1, hk, h => by
    simp only [List.take_succ_cons, List.sum_cons] at h
    simp only [List.length_cons] at hk
    simp only [binLen]
    split
    · have := binLen_min min (acc + r) rs k (by omega) (by omega)
      omega
    · omega

/-- No part could be split further. -/
def Unsplittable (min : Nat) (t : List FM) : Prop :=
  ∀ a b, t = a ++ b → min ≤ (a.map FM.live).sum → (b.map FM.live).sum < min

theorem sum_drop_le : ∀ (l : List Nat) (n k : Nat), n ≤ k → (l.drop k).sum ≤ (l.drop n).sum
  | [], _, _, _ => by simp
  | x :: l, 0, 0, _ => Nat.le_refl _
  | x :: l, 0, k + 1, _ => by
    simp only [List.drop_succ_cons, List.drop_zero, List.sum_cons]
    have := sum_drop_le l 0 k (Nat.zero_le _)
    simp only [List.drop_zero] at this
    omega
  | x :: l, n + 1, 0, h => by omega
  | x :: l, n + 1, k + 1, h => by
    simp only [List.drop_succ_cons]
    exact sum_drop_le l n k (by omega)

theorem splitGo_min (min : Nat) (hmin : 0 < min) : ∀ (fuel : Nat) (xs : List (FM × Cand)) parts,
    splitGo min fuel xs = some parts → ∀ p ∈ parts, Unsplittable min (p.map (·.1))
  | 0, _, _, h => by simp [splitGo] at h
  | fuel + 1, xs, parts, h => by
    simp only [splitGo] at h
    split at h
    · rename_i hs
      split at h
      · cases h
      · rename_i r hr
        cases h
        intro p hp
        rcases List.mem_cons.1 hp with rfl | hp
        · intro a b hab ha
          have htake : (xs.take (binLen min 0 (xs.map (·.1.live)))).map (·.1.live) = a.map FM.live ++ b.map FM.live := by
            rw [← List.map_append, ← hab, List.map_map]; rfl
          have hlen := congrArg List.length htake
          simp only [List.length_map, List.length_take, List.length_append] at hlen
          have hpre : (xs.map (·.1.live)).take a.length = a.map FM.live := by
            have e := congrArg (fun l => l.take a.length) htake
            simp only [List.map_take, List.take_take] at e
            rw [Nat.min_eq_left (by omega), List.take_append_of_le_length (by simp),
              List.take_of_length_le (l := a.map FM.live) (by simp)] at e
            exact e
          have := binLen_min min 0 (xs.map (·.1.live)) a.length (by simp; omega) (by rw [hpre]; omega)
          have hb : b = [] := List.eq_nil_of_length_eq_zero (by omega)
          rw [hb]; simpa using hmin
        · exact splitGo_min min hmin fuel _ r hr p hp
    · rename_i hs
      cases h
      intro p hp
      rw [List.mem_singleton] at hp
      subst hp
      intro a b hab ha
      have hxs : p.map (·.1.live) = a.map FM.live ++ b.map FM.live := by
        rw [← List.map_append, ← hab, List.map_map]; rfl
      have h1 := binLen_min min 0 (p.map (·.1.live)) a.length (by rw [hxs]; simp)
        (by rw [hxs, List.take_append_of_le_length (by simp), List.take_of_length_le (by simp)]; omega)
      have h2 := sum_drop_le (p.map (·.1.live)) _ a.length h1
      have h3 : (p.map (·.1.live)).drop a.length = b.map FM.live := by
        rw [hxs]
        have : a.length = (a.map FM.live).length := by simp
        rw [this, List.drop_left]
      rw [h3] at h2
      omega

theorem splitAll_min (min : Nat) (hmin : 0 < min) (fuel : Nat) : ∀ (bs : List Bin) ts,
    splitAll min fuel bs = some ts → ∀ t ∈ ts, Unsplittable min t
  | [], ts, h => by cases h; simp
  | b :: bs, ts, h => by
    simp only [splitAll] at h
    split at h
    · rename_i parts r h1 h2
      cases h
      intro t ht
      rcases List.mem_append.1 ht with ht | ht
      · obtain ⟨p, hp, rfl⟩ := List.mem_map.1 ht
        exact splitGo_min min hmin fuel _ _ h1 p hp
      · exact splitAll_min min hmin fuel bs r h2 t ht
    · cases h

/-- C25: tasks are no larger than needed: when the first fragments of a task already reach the target, the others
together do not. -/
theorem C25_minimal (o : Opts) (maps : List Bm) (fs : List FM) (ht : 0 < o.target) (ts : List (List FM)) (fuel : Nat)
    (h : plan o maps fuel fs = some ts) (t : List FM) (hm : t ∈ ts) (a b : List FM) (hab : t = a ++ b)
    (ha : o.target ≤ (a.map FM.live).sum) : (b.map FM.live).sum < o.target :=
  splitAll_min o.target ht fuel _ _ h t hm a b hab ha

/-! ## Nothing is forgotten -/

/-- The bins hold all candidates. -/
theorem bins_mem (o : Opts) (maps : List Bm) : ∀ (fs : List FM) (cur : Option Bin) (f : FM),
    (f ∈ fs ∧ Worth o f) ∨ (∃ b ∈ cur, f ∈ b.frags) → ∃ b ∈ binsFrom o maps cur fs, f ∈ b.frags
  | [], cur, f, h => by
    rcases h with h | ⟨b, hb, hf⟩
    · cases h.1
    · cases hb; exact ⟨b, by simp [binsFrom], hf⟩
  | g :: fs, cur, f, h => by
    unfold binsFrom
    split
    · rename_i hc
      refine bins_mem o maps fs none f (.inl ?_)
      rcases h with h | ⟨b, hb, _⟩
      · rcases List.mem_cons.1 h.1 with rfl | h1
        · obtain ⟨c, hc'⟩ := (candidacy_worth o f).2 h.2
          rw [hc] at hc'; cases hc'
        · exact ⟨h1, h.2⟩
      · cases hb
    · refine bins_mem o maps fs _ f ?_
      rcases h with h | ⟨b, hb, _⟩
      · rcases List.mem_cons.1 h.1 with rfl | h1
        · exact .inr ⟨_, rfl, by simp [Bin.frags]⟩
        · exact .inl ⟨h1, h.2⟩
      · cases hb
    · rename_i c b hc
      split
      · refine bins_mem o maps fs _ f ?_
        rcases h with h | ⟨b', hb, hf⟩
        · rcases List.mem_cons.1 h.1 with rfl | h1
          · exact .inr ⟨_, rfl, by simp [Bin.frags]⟩
          · exact .inl ⟨h1, h.2⟩
        · cases hb
          refine .inr ⟨_, rfl, ?_⟩
          simp only [Bin.frags, List.map_append, List.mem_append] at hf ⊢
          exact .inl hf
      · rcases h with h | ⟨b', hb, hf⟩
        · obtain ⟨b', h1, h2⟩ := bins_mem o maps fs (some ⟨[(g, c)], indicesOf maps g.id⟩) f (by
            rcases List.mem_cons.1 h.1 with rfl | h1
            · exact .inr ⟨_, rfl, by simp [Bin.frags]⟩
            · exact .inl ⟨h1, h.2⟩)
          exact ⟨b', List.mem_cons_of_mem _ h1, h2⟩
        · cases hb
          exact ⟨_, List.mem_cons_self .., hf⟩
    · rename_i b hc
      rcases h with h | ⟨b', hb, hf⟩
      · obtain ⟨b', h1, h2⟩ := bins_mem o maps fs none f (.inl (by
          rcases List.mem_cons.1 h.1 with rfl | h1
          · obtain ⟨c, hc'⟩ := (candidacy_worth o f).2 h.2
            rw [hc] at hc'; cases hc'
          · exact ⟨h1, h.2⟩))
        exact ⟨b', List.mem_cons_of_mem _ h1, h2⟩
      · cases hb
        exact ⟨_, List.mem_cons_self .., hf⟩

/-- C25: every fragment that is to be rewritten by itself is in a task. -/
theorem C25_complete (o : Opts) (maps : List Bm) (fs : List FM) (ht : 0 < o.target) (ts : List (List FM))
    (h : plan o maps (fs.length + 1) fs = some ts) (f : FM) (hf : f ∈ fs) (hi : Itself o f) : ∃ t ∈ ts, f ∈ t := by
  obtain ⟨b, hb, hfb⟩ := bins_mem o maps fs none f (.inl ⟨hf, .inl hi⟩)
  have hok := bins_ok o maps fs none (by simp) b hb
  have hn : b.noop = false := by
    unfold Bin.noop
    split
    · rename_i he; exact absurd he hok.ne
    · rename_i x he
      simp only [Bin.frags, he, List.map_cons, List.map_nil, List.mem_singleton] at hfb
      have hc := hok.cand x (by rw [he]; simp)
      rw [← hfb, (candidacy_itself o f).2 hi] at hc
      simp only [Option.some.injEq] at hc
      rw [← hc]; rfl
    · rfl
  obtain ⟨pss, h1, h2, h3⟩ := plan_spec o maps fs ht
  rw [h1] at h
  cases h
  obtain ⟨parts, hp, hz⟩ := mem_zip_of_mem_left _ pss h2 b (List.mem_filter.2 ⟨hb, by simp [hn]⟩)
  have := (h3 _ hz).1
  have hf' : f ∈ parts.flatten := by rw [this]; exact hfb
  obtain ⟨t, ht1, ht2⟩ := List.mem_flatten.1 hf'
  exact ⟨t, List.mem_flatten.2 ⟨parts, hp, ht1⟩, ht2⟩

theorem indicesOf_of_sameCover {maps : List Bm} {f g : FM} (h : SameCover maps f g) :
    indicesOf maps f.id = indicesOf maps g.id := by
  unfold indicesOf
  congr 1
  apply List.filter_congr
  intro x hx
  have hm : x.1 ∈ maps := by
    obtain ⟨b, i⟩ := x
    exact List.fst_mem_of_mem_zipIdx hx
  have := h x.1 hm
  rw [Bool.eq_iff_iff, Bm.has_iff, Bm.has_iff]
  exact this

theorem step_new {o : Opts} {maps : List Bm} {f : FM} {c : Cand} (hc : o.candidacy f = some c) (fs : List FM) :
    binsFrom o maps none (f :: fs) = binsFrom o maps (some ⟨[(f, c)], indicesOf maps f.id⟩) fs := by
  simp only [binsFrom, hc]

theorem step_push {o : Opts} {maps : List Bm} {f : FM} {c : Cand} (hc : o.candidacy f = some c) {b : Bin}
    (he : b.indices = indicesOf maps f.id) (fs : List FM) :
    binsFrom o maps (some b) (f :: fs) = binsFrom o maps (some { b with items := b.items ++ [(f, c)] }) fs := by
  simp only [binsFrom, hc]
  rw [if_pos he]

theorem step_flush {o : Opts} {maps : List Bm} {f : FM} {c : Cand} (hc : o.candidacy f = some c) {b : Bin}
    (he : ¬ b.indices = indicesOf maps f.id) (fs : List FM) :
    binsFrom o maps (some b) (f :: fs) = b :: binsFrom o maps (some ⟨[(f, c)], indicesOf maps f.id⟩) fs := by
  simp only [binsFrom, hc]
  rw [if_neg he]

/-- Adjacent candidates with the same coverage share a bin. -/
theorem bins_adjacent (o : Opts) (maps : List Bm) (f g : FM) (hf : Worth o f) (hg : Worth o g)
    (hi : indicesOf maps f.id = indicesOf maps g.id) (post : List FM) : ∀ (pre : List FM) (cur : Option Bin),
    ∃ b ∈ binsFrom o maps cur (pre ++ f :: g :: post), f ∈ b.frags ∧ g ∈ b.frags := by
  obtain ⟨c, hc⟩ := (candidacy_worth o f).2 hf
  obtain ⟨d, hd⟩ := (candidacy_worth o g).2 hg
  have stay : ∀ (fs : List FM) (b : Bin), f ∈ b.frags → g ∈ b.frags →
      ∃ b' ∈ binsFrom o maps (some b) fs, f ∈ b'.frags ∧ g ∈ b'.frags := by
    intro fs
    induction fs with
    | nil => intro b h1 h2; exact ⟨b, by simp [binsFrom], h1, h2⟩
    | cons x fs ih =>
      intro b h1 h2
      cases hx : o.candidacy x with
      | none => exact ⟨b, by simp [binsFrom, hx], h1, h2⟩
      | some c =>
        by_cases he : b.indices = indicesOf maps x.id
        · have hb : ∀ y, y ∈ b.frags → y ∈ ({ b with items := b.items ++ [(x, c)] } : Bin).frags := by
            intro y hy; simp only [Bin.frags, List.map_append, List.mem_append] at hy ⊢; exact .inl hy
          have e : binsFrom o maps (some b) (x :: fs) =
              binsFrom o maps (some { b with items := b.items ++ [(x, c)] }) fs := by simp [binsFrom, hx, he]
          rw [e]
          exact ih _ (hb f h1) (hb g h2)
        · exact ⟨b, by simp [binsFrom, hx, he], h1, h2⟩
  -- once `f` ends the bin being filled, `g` joins it
  have join : ∀ (b : Bin), f ∈ b.frags → b.indices = indicesOf maps f.id →
      ∃ b' ∈ binsFrom o maps (some b) (g :: post), f ∈ b'.frags ∧ g ∈ b'.frags := by
    intro b h1 h2
    have e : binsFrom o maps (some b) (g :: post) =
        binsFrom o maps (some { b with items := b.items ++ [(g, d)] }) post := by simp [binsFrom, hd, h2, hi]
    rw [e]
    apply stay
    · simp only [Bin.frags, List.map_append, List.mem_append] at h1 ⊢; exact .inl h1
    · simp [Bin.frags]
  intro pre
  induction pre with
  | nil =>
    intro cur
    have hnew : f ∈ (⟨[(f, c)], indicesOf maps f.id⟩ : Bin).frags := by simp [Bin.frags]
    cases cur with
    | none =>
      rw [List.nil_append, step_new hc]
      exact join _ hnew rfl
    | some b =>
      by_cases he : b.indices = indicesOf maps f.id
      · rw [List.nil_append, step_push hc he]
        exact join _ (by simp [Bin.frags]) he
      · rw [List.nil_append, step_flush hc he]
        obtain ⟨b', h1, h2⟩ := join _ hnew rfl
        exact ⟨b', List.mem_cons_of_mem _ h1, h2⟩
  | cons x pre ih =>
    intro cur
    rw [List.cons_append]
    unfold binsFrom
    split
    · exact ih none
    · exact ih _
    · split
      · exact ih _
      · obtain ⟨b', h1, h2⟩ := ih (some _)
        exact ⟨b', List.mem_cons_of_mem _ h1, h2⟩
    · obtain ⟨b', h1, h2⟩ := ih none
      exact ⟨b', List.mem_cons_of_mem _ h1, h2⟩

/-- C25: two adjacent fragments that are both worth rewriting and covered by the same indices are rewritten. -/
theorem C25_adjacent (o : Opts) (maps : List Bm) (pre post : List FM) (f g : FM) (ht : 0 < o.target)
    (ts : List (List FM)) (h : plan o maps ((pre ++ f :: g :: post).length + 1) (pre ++ f :: g :: post) = some ts)
    (hf : Worth o f) (hg : Worth o g) (hne : f ≠ g) (hc : SameCover maps f g) :
    (∃ t ∈ ts, f ∈ t) ∧ ∃ t ∈ ts, g ∈ t := by
  obtain ⟨b, hb, h1, h2⟩ := bins_adjacent o maps f g hf hg (indicesOf_of_sameCover hc) post pre none
  have hn : b.noop = false := by
    unfold Bin.noop
    split
    · rename_i he; simp [Bin.frags, he] at h1
    · rename_i x he
      simp only [Bin.frags, he, List.map_cons, List.map_nil, List.mem_singleton] at h1 h2
      exact absurd (h1.trans h2.symm) hne
    · rfl
  obtain ⟨pss, e1, e2, e3⟩ := plan_spec o maps _ ht
  rw [e1] at h
  cases h
  obtain ⟨parts, hp, hz⟩ := mem_zip_of_mem_left _ pss e2 b (List.mem_filter.2 ⟨hb, by simp [hn]⟩)
  have := (e3 _ hz).1
  have key : ∀ x, x ∈ b.frags → ∃ t ∈ pss.flatten, x ∈ t := by
    intro x hx
    have hx' : x ∈ parts.flatten := by rw [this]; exact hx
    obtain ⟨t, ht1, ht2⟩ := List.mem_flatten.1 hx'
    exact ⟨t, List.mem_flatten.2 ⟨parts, hp, ht1⟩, ht2⟩
  exact ⟨key f h1, key g h2⟩

/-! ## Planning ends -/

/-- Planning always ends. -/
def C25_ends_statement : Prop :=
  ∀ (o : Opts) (maps : List Bm) (fs : List FM), ∃ fuel ts, plan o maps fuel fs = some ts

/-- With a target of zero rows per fragment, a fragment with deletions makes `split_for_size` push empty bins for
ever (optimize.rs:403-428). -/
theorem C25_ends_violated : ¬ C25_ends_statement := by
  intro h
  obtain ⟨fuel, ts, h⟩ := h ⟨0, true, fun d p => decide (p < 10 * d)⟩ [] [⟨0, 10, 5⟩]
  have : plan ⟨0, true, fun d p => decide (p < 10 * d)⟩ [] fuel [⟨0, 10, 5⟩] = none := by
    simp [plan, binsFrom, Opts.candidacy, Bin.noop, splitAll, splitGo_zero]
  rw [this] at h
  cases h

theorem C25_ends_partial (o : Opts) (maps : List Bm) (fs : List FM) (ht : 0 < o.target) :
    ∃ ts, plan o maps (fs.length + 1) fs = some ts :=
  let ⟨ts, h, _⟩ := C25_runs o maps fs ht; ⟨ts, h⟩

/-! ## Indices without a fragment bitmap -/

/-- The planner takes the fragments an index without bitmap covers to be those that existed when it was built:
all ids up to the highest. -/
def C25_legacy_statement : Prop := ∀ (maxFrag id : Nat), id ∈ fragmap none maxFrag ↔ id ≤ maxFrag

/-- The range is exclusive (optimize.rs:443), so the last fragment counts as not indexed and may be merged with
fragments that are not. -/
theorem C25_legacy_violated : ¬ C25_legacy_statement := by
  intro h
  exact absurd ((h 3 3).2 (Nat.le_refl _)) (by decide)

theorem C25_legacy_partial (bitmap : Option Bm) (maxFrag id : Nat) :
    id ∈ fragmap bitmap maxFrag ↔ (match bitmap with | some b => id ∈ b | none => id < maxFrag) := by
  cases bitmap <;> simp [fragmap]

/-! A case: four small fragments of which the first two are indexed, one large fragment, and one large fragment
with deletions. -/
private def xo : Opts := ⟨100, true, fun d p => decide (p < 10 * d)⟩
private def xf : List FM := [⟨0, 10, 0⟩, ⟨1, 10, 0⟩, ⟨2, 10, 0⟩, ⟨3, 95, 0⟩, ⟨4, 200, 0⟩, ⟨5, 200, 50⟩, ⟨6, 20, 0⟩, ⟨7, 90, 0⟩]

example : plan xo [[0, 1]] 9 xf =
    some [[⟨0, 10, 0⟩, ⟨1, 10, 0⟩], [⟨2, 10, 0⟩, ⟨3, 95, 0⟩], [⟨5, 200, 50⟩], [⟨6, 20, 0⟩, ⟨7, 90, 0⟩]] := by decide

example : Itself xo ⟨5, 200, 50⟩ :=
  C25_single xo [[0, 1]] xf (by decide) _ (by decide : plan xo [[0, 1]] 9 xf =
    some [[⟨0, 10, 0⟩, ⟨1, 10, 0⟩], [⟨2, 10, 0⟩, ⟨3, 95, 0⟩], [⟨5, 200, 50⟩], [⟨6, 20, 0⟩, ⟨7, 90, 0⟩]]) _ (by simp)

end Verif.Compact
