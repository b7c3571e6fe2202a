import Verif.RowIds.Index
import Verif.RowIds.SequenceLemmas
import Verif.RowSet.Lemmas

/-! # C13 lookup of stable row ids -/
namespace Verif.RowIds
namespace Index

/-- What a scan sees: row `i` of fragment `f` has the id `v`. -/
def ScanHas (frags : List (Nat × Seq)) (v f i : Nat) : Prop :=
  ∃ q, (f, q) ∈ frags ∧ (Seq.iter q)[i]? = some v

/-- Every piece describes its segment. -/
def PieceOk (p : Piece) : Prop :=
  p.seg.WF ∧ p.lo ≤ p.hi ∧ (∀ v ∈ p.seg.iter, p.lo ≤ v ∧ v ≤ p.hi) ∧
  ∃ a, p.addr = .range a (a + p.seg.iter.length) ∧ a + p.seg.iter.length ≤ U64

/-- Address `a` holds id `v` according to the piece. -/
def PieceHas (p : Piece) (v a : Nat) : Prop :=
  ∃ i s, p.addr = .range s (s + p.seg.iter.length) ∧ p.seg.iter[i]? = some v ∧ a = s + i

theorem firstRow_eq (f : Nat) (h : f < 4294967296) : RowSet.firstRow f = f * 4294967296 := by
  unfold RowSet.firstRow
  rw [RowSet.newFromParts_eq (by omega)]
  omega

theorem decomposeFrom_spec (q : Seq) (h : ∀ sg ∈ q, sg.Good) (start : Nat)
    (hb64 : start + (Seq.iter q).length ≤ U64) :
    ∃ ps, decomposeFrom start q = some ps ∧ (∀ p ∈ ps, PieceOk p) ∧
      ∀ v a, (∃ p ∈ ps, PieceHas p v a) ↔ ∃ i, (Seq.iter q)[i]? = some v ∧ a = start + i := by
  induction q generalizing start with
  | nil => exact ⟨[], rfl, by simp, by simp [Seq.iter]⟩
  | cons sg rest ih =>
    have hg := h sg List.mem_cons_self
    have hl := Seg.len_eq sg hg.1
    rw [Seq.iter_cons, List.length_append] at hb64
    obtain ⟨ps, h1, h2, h3⟩ := ih (fun s hs => h s (List.mem_cons_of_mem _ hs)) (start + sg.len) (by omega)
    unfold decomposeFrom
    by_cases hne : sg.iter = []
    · rcases Seg.bounds_good sg hg with ⟨lo, hi, hb, _⟩ | ⟨hb, _⟩
      · obtain ⟨s, e, rfl⟩ := hg.2 hne
        have : e - s = 0 := by simpa [Seg.iter] using hne
        simp only [Seg.bounds] at hb
        rw [if_pos (by omega)] at hb
        cases hb
      · rw [hb]
        refine ⟨ps, h1, h2, fun v a => ?_⟩
        rw [h3 v a, Seq.iter_cons, hl, hne]
        simp
    · obtain ⟨lo, hi, hb, hlohi, hin⟩ := Seg.C10_bounds sg hg.1 hne
      rw [hb]
      simp only
      rw [h1]
      refine ⟨_, rfl, ?_, ?_⟩
      · intro p hp
        rcases List.mem_cons.1 hp with rfl | hp
        · exact ⟨hg.1, hlohi, hin, start, by simp only [hl], show start + sg.iter.length ≤ U64 by omega⟩
        · exact h2 p hp
      · intro v a
        rw [Seq.iter_cons]
        constructor
        · rintro ⟨p, hp, hph⟩
          rcases List.mem_cons.1 hp with rfl | hp
          · obtain ⟨i, s, e1, e2, e3⟩ := hph
            have hs : start = s := (Seg.range.inj e1).1
            subst hs
            refine ⟨i, ?_, e3⟩
            simp only at e2
            obtain ⟨hi', _⟩ := List.getElem?_eq_some_iff.1 e2
            rw [List.getElem?_append_left hi', e2]
          · obtain ⟨i, e1, e2⟩ := (h3 v a).1 ⟨p, hp, hph⟩
            refine ⟨sg.len + i, ?_, by omega⟩
            rw [List.getElem?_append_right (by omega), hl, Nat.add_sub_cancel_left, e1]
        · rintro ⟨i, e1, e2⟩
          by_cases hi' : i < sg.iter.length
          · rw [List.getElem?_append_left hi'] at e1
            exact ⟨_, List.mem_cons_self, i, start, by simp only [hl], e1, e2⟩
          · rw [List.getElem?_append_right (by omega)] at e1
            obtain ⟨p, hp, hph⟩ := (h3 v a).2 ⟨i - sg.iter.length, e1, by omega⟩
            exact ⟨p, List.mem_cons_of_mem _ hp, hph⟩

theorem piecesOf_spec (frags : List (Nat × Seq)) (h : ∀ fq ∈ frags, ∀ sg ∈ fq.2, sg.Good)
    (hf : ∀ fq ∈ frags, fq.1 < 4294967296 ∧ (Seq.iter fq.2).length ≤ 4294967296) :
    ∃ ps, piecesOf frags = some ps ∧ (∀ p ∈ ps, PieceOk p) ∧
      ∀ v a, (∃ p ∈ ps, PieceHas p v a) ↔ ∃ f i, ScanHas frags v f i ∧ a = RowSet.firstRow f + i := by
  induction frags with
  | nil => exact ⟨[], rfl, by simp, by simp [ScanHas]⟩
  | cons fq rest ih =>
    obtain ⟨f, q⟩ := fq
    obtain ⟨ps, h1, h2, h3⟩ := ih (fun s hs => h s (List.mem_cons_of_mem _ hs))
      (fun s hs => hf s (List.mem_cons_of_mem _ hs))
    have hfq := hf (f, q) List.mem_cons_self
    have hfirst := firstRow_eq f hfq.1
    obtain ⟨qs, q1, q2, q3⟩ := decomposeFrom_spec q (h (f, q) List.mem_cons_self) (RowSet.firstRow f)
      (by rw [hfirst]; simp only at hfq; omega)
    unfold piecesOf decompose
    rw [q1, h1]
    refine ⟨qs ++ ps, rfl, ?_, ?_⟩
    · intro p hp
      rcases List.mem_append.1 hp with hp | hp
      · exact q2 p hp
      · exact h2 p hp
    · intro v a
      constructor
      · rintro ⟨p, hp, hph⟩
        rcases List.mem_append.1 hp with hp | hp
        · obtain ⟨i, e1, e2⟩ := (q3 v a).1 ⟨p, hp, hph⟩
          exact ⟨f, i, ⟨q, List.mem_cons_self, e1⟩, e2⟩
        · obtain ⟨f', i, ⟨q', m, e1⟩, e2⟩ := (h3 v a).1 ⟨p, hp, hph⟩
          exact ⟨f', i, ⟨q', List.mem_cons_of_mem _ m, e1⟩, e2⟩
      · rintro ⟨f', i, ⟨q', m, e1⟩, e2⟩
        rcases List.mem_cons.1 m with e | m
        · cases e
          obtain ⟨p, hp, hph⟩ := (q3 v a).2 ⟨i, e1, e2⟩
          exact ⟨p, List.mem_append_left _ hp, hph⟩
        · obtain ⟨p, hp, hph⟩ := (h3 v a).2 ⟨f', i, ⟨q', m, e1⟩, e2⟩
          exact ⟨p, List.mem_append_right _ hp, hph⟩

theorem not_overlapping (ps : List Piece) (hok : ∀ p ∈ ps, p.lo ≤ p.hi) :
    overlapping ps = false ↔ ps.Pairwise (fun a b => a.hi < b.lo) := by
  induction ps with
  | nil => simp [overlapping]
  | cons a rest ih =>
    have ih := ih (fun p hp => hok p (List.mem_cons_of_mem _ hp))
    cases rest with
    | nil => simp [overlapping]
    | cons b rest =>
      have hb := hok b (List.mem_cons_of_mem _ List.mem_cons_self)
      simp only [overlapping, Bool.or_eq_false_iff, decide_eq_false_iff_not, ih]
      rw [List.pairwise_cons (a := a)]
      constructor
      · rintro ⟨h1, h2⟩
        refine ⟨?_, h2⟩
        intro c hc
        rcases List.mem_cons.1 hc with rfl | hc
        · omega
        · have := (List.pairwise_cons.1 h2).1 c hc
          omega
      · rintro ⟨h1, h2⟩
        have := h1 b List.mem_cons_self
        exact ⟨by omega, h2⟩

theorem find_unique (ps : List Piece) (hd : ps.Pairwise (fun a b => a.hi < b.lo)) (hok : ∀ p ∈ ps, p.lo ≤ p.hi)
    (p : Piece) (hp : p ∈ ps) (v : Nat) (h : p.lo ≤ v ∧ v ≤ p.hi) :
    ps.find? (fun p => decide (p.lo ≤ v ∧ v ≤ p.hi)) = some p := by
  induction ps with
  | nil => cases hp
  | cons a rest ih =>
    obtain ⟨h1, h2⟩ := List.pairwise_cons.1 hd
    rcases List.mem_cons.1 hp with rfl | hp
    · rw [List.find?_cons_of_pos (by simpa using h)]
    · have := h1 p hp
      rw [List.find?_cons_of_neg (by simp; omega)]
      exact ih h2 (fun p hp => hok p (List.mem_cons_of_mem _ hp)) hp

theorem get_spec (ix : List Piece) (hd : ix.Pairwise (fun a b => a.hi < b.lo)) (hok : ∀ p ∈ ix, PieceOk p) (v : Nat) :
    (∀ a, get ix v = some (some a) ↔ ∃ p ∈ ix, PieceHas p v a) ∧
    ((∀ a, ¬ ∃ p ∈ ix, PieceHas p v a) → get ix v = some none) := by
  have hget : ∀ p ∈ ix, p.lo ≤ v ∧ v ≤ p.hi →
      (∀ a, get ix v = some (some a) ↔ PieceHas p v a) ∧ ((∀ a, ¬ PieceHas p v a) → get ix v = some none) := by
    intro p hp hin
    obtain ⟨w1, w2, w3, s, w4, w5⟩ := hok p hp
    unfold get
    rw [find_unique ix hd (fun p hp => (hok p hp).2.1) p hp v hin]
    simp only
    rw [Seg.position_eq p.seg w1]
    by_cases hv : v ∈ p.seg.iter
    · rw [if_pos hv]
      simp only
      rw [w4]
      have hlt : p.seg.iter.idxOf v < p.seg.iter.length := List.idxOf_lt_length_iff.2 hv
      have hge : (Seg.range s (s + p.seg.iter.length)).get (p.seg.iter.idxOf v) = some (s + p.seg.iter.idxOf v) := by
        simp only [Seg.get]
        rw [if_pos (by omega)]
      rw [hge]
      have hpos := getElem?_idxOf_mem hv
      constructor
      · intro a
        constructor
        · intro e; cases e
          exact ⟨_, s, w4, hpos, rfl⟩
        · rintro ⟨i, s', e1, e2, e3⟩
          rw [w4] at e1
          cases e1
          obtain ⟨hi, e'⟩ := List.getElem?_eq_some_iff.1 e2
          have hidx : p.seg.iter.idxOf v = i := by
            rw [← e']; exact (Seg.iter_nodup p.seg w1).idxOf_getElem i hi
          rw [e3, hidx]
      · intro hn
        exact absurd ⟨_, s, w4, hpos, rfl⟩ (hn _)
    · rw [if_neg hv]
      constructor
      · intro a
        constructor
        · intro e; cases e
        · rintro ⟨i, _, _, e2, _⟩
          exact absurd (List.mem_of_getElem? e2) hv
      · intro _; rfl
  by_cases hex : ∃ p ∈ ix, p.lo ≤ v ∧ v ≤ p.hi
  · obtain ⟨p, hp, hin⟩ := hex
    obtain ⟨g1, g2⟩ := hget p hp hin
    have huniq : ∀ p' ∈ ix, ∀ a, PieceHas p' v a → p' = p := by
      intro p' hp' a ⟨i, _, _, e2, _⟩
      have hin' := (hok p' hp').2.2.1 v (List.mem_of_getElem? e2)
      have f1 := find_unique ix hd (fun p hp => (hok p hp).2.1) p hp v hin
      have f2 := find_unique ix hd (fun p hp => (hok p hp).2.1) p' hp' v hin'
      rw [f1] at f2; exact (Option.some.inj f2).symm
    constructor
    · intro a
      rw [g1 a]
      constructor
      · intro hh; exact ⟨p, hp, hh⟩
      · rintro ⟨p', hp', hh⟩
        rw [huniq p' hp' a hh] at hh; exact hh
    · intro hn
      exact g2 (fun a hh => hn a ⟨p, hp, hh⟩)
  · have hnone : get ix v = some none := by
      unfold get
      rw [List.find?_eq_none.2 (by
        intro p hp
        simp only [decide_eq_true_eq]
        exact fun hh => hex ⟨p, hp, hh⟩)]
    refine ⟨fun a => ?_, fun _ => hnone⟩
    rw [hnone]
    constructor
    · intro e; cases e
    · rintro ⟨p, hp, i, _, _, e2, _⟩
      exact absurd ⟨p, hp, (hok p hp).2.2.1 v (List.mem_of_getElem? e2)⟩ hex

/-- C13, full statement: the index exists for all fragments with pairwise distinct row ids, and a
lookup finds exactly the addresses a scan sees. -/
def C13_statement : Prop :=
  ∀ frags : List (Nat × Seq), (∀ fq ∈ frags, ∀ sg ∈ fq.2, sg.Good) →
    (∀ fq ∈ frags, fq.1 < 4294967296 ∧ (Seq.iter fq.2).length ≤ 4294967296) → (frags.map Prod.fst).Nodup →
    (frags.flatMap (fun fq => Seq.iter fq.2)).Nodup →
    ∃ ix, new frags = .ok ix ∧ ∀ v,
      (∀ f i, ScanHas frags v f i → get ix v = some (some (f * 4294967296 + i))) ∧
      ((∀ f i, ¬ ScanHas frags v f i) → get ix v = some none)

/-- Fragment 0 with ids `0, 2`, fragment 1 with ids `1, 3`. -/
def interleaved : List (Nat × Seq) := [(0, [.sorted (.u64 [0, 2])]), (1, [.sorted (.u64 [1, 3])])]

/-- C13 fails: interleaved ids of two fragments are rejected ("Overlapping ranges are not yet
supported", index.rs:42-47). -/
theorem C13_lookup_violated : ¬ C13_statement := by
  intro h
  obtain ⟨ix, h1, _⟩ := h interleaved (by
    intro fq hfq sg hsg
    simp only [interleaved, List.mem_cons, List.not_mem_nil, or_false] at hfq
    rcases hfq with rfl | rfl
    all_goals
      simp only [List.mem_singleton] at hsg
      subst hsg
      exact ⟨⟨trivial, by decide⟩, fun e => absurd e (by decide)⟩) (by decide +kernel) (by decide) (by decide)
  have e : new interleaved = .error .notSupported := by rfl
  rw [e] at h1
  cases h1

/-- C13: for fragments of at most `2^32` rows, whenever the index can be built, a lookup gives the address at which a scan finds the id,
and nothing for other ids; building fails only with `NotSupported`.  Missing: the index is not built
for interleaved id ranges (false, see above). -/
theorem C13_lookup_partial (frags : List (Nat × Seq)) (hg : ∀ fq ∈ frags, ∀ sg ∈ fq.2, sg.Good)
    (hf : ∀ fq ∈ frags, fq.1 < 4294967296 ∧ (Seq.iter fq.2).length ≤ 4294967296) :
    (new frags = .error .notSupported) ∨
    ∃ ix, new frags = .ok ix ∧ ∀ v,
      (∀ a, get ix v = some (some a) ↔ ∃ f i, ScanHas frags v f i ∧ a = f * 4294967296 + i) ∧
      ((∀ f i, ¬ ScanHas frags v f i) → get ix v = some none) := by
  obtain ⟨ps, h1, h2, h3⟩ := piecesOf_spec frags hg hf
  unfold new
  rw [h1]
  simp only
  by_cases ho : overlapping (sortBy Piece.lo ps) = true
  · left; rw [if_pos ho]
  · right
    rw [if_neg ho]
    have ho' : overlapping (sortBy Piece.lo ps) = false := by simpa using ho
    have hok : ∀ p ∈ sortBy Piece.lo ps, PieceOk p := fun p hp => h2 p ((mem_sortBy _).1 hp)
    have hd := (not_overlapping _ (fun p hp => (hok p hp).2.1)).1 ho'
    have hfirst : ∀ v f i, ScanHas frags v f i → RowSet.firstRow f = f * 4294967296 := by
      rintro v f i ⟨q, hq, _⟩
      exact firstRow_eq f (hf _ hq).1
    refine ⟨_, rfl, fun v => ?_⟩
    obtain ⟨g1, g2⟩ := get_spec _ hd hok v
    have key : ∀ a, (∃ p ∈ sortBy Piece.lo ps, PieceHas p v a) ↔
        ∃ f i, ScanHas frags v f i ∧ a = f * 4294967296 + i := by
      intro a
      have : (∃ p ∈ sortBy Piece.lo ps, PieceHas p v a) ↔ ∃ p ∈ ps, PieceHas p v a := by
        simp only [mem_sortBy]
      rw [this, h3 v a]
      constructor
      · rintro ⟨f, i, hs, e⟩; exact ⟨f, i, hs, by rw [e, hfirst v f i hs]⟩
      · rintro ⟨f, i, hs, e⟩; exact ⟨f, i, hs, by rw [e, hfirst v f i hs]⟩
    constructor
    · intro a; rw [g1 a, key a]
    · intro hn
      apply g2
      intro a hh
      obtain ⟨f, i, hs, _⟩ := (key a).1 hh
      exact hn f i hs

/-- C13: the index is built exactly when no two segments (of any fragments) have overlapping
hulls. -/
theorem C13_builds_iff (frags : List (Nat × Seq)) (hg : ∀ fq ∈ frags, ∀ sg ∈ fq.2, sg.Good)
    (hf : ∀ fq ∈ frags, fq.1 < 4294967296 ∧ (Seq.iter fq.2).length ≤ 4294967296) :
    ∃ ps, piecesOf frags = some ps ∧
      ((∃ ix, new frags = .ok ix) ↔ ps.Pairwise (fun a b => a.hi < b.lo ∨ b.hi < a.lo)) := by
  obtain ⟨ps, h1, h2, _⟩ := piecesOf_spec frags hg hf
  refine ⟨ps, h1, ?_⟩
  have hperm := sortBy_perm Piece.lo ps
  have hok : ∀ p ∈ sortBy Piece.lo ps, p.lo ≤ p.hi := fun p hp => (h2 p ((mem_sortBy _).1 hp)).2.1
  have hsymm : ps.Pairwise (fun a b => a.hi < b.lo ∨ b.hi < a.lo) ↔
      (sortBy Piece.lo ps).Pairwise (fun a b => a.hi < b.lo ∨ b.hi < a.lo) :=
    (hperm.pairwise_iff (fun {a b} h => h.symm)).symm
  have hno := not_overlapping _ hok
  unfold new
  rw [h1]
  simp only
  rw [hsymm]
  by_cases ho : overlapping (sortBy Piece.lo ps) = true
  · rw [if_pos ho]
    constructor
    · rintro ⟨ix, e⟩; cases e
    · intro hp
      exfalso
      have hlt : (sortBy Piece.lo ps).Pairwise (fun a b => a.hi < b.lo) := by
        have hs := sortBy_sorted Piece.lo ps
        have both := hp.and hs
        apply List.Pairwise.imp_of_mem _ both
        rintro a b ha hb ⟨h | h, hle⟩
        · exact h
        · have := hok b hb; omega
      rw [hno.2 hlt] at ho
      cases ho
  · rw [if_neg ho]
    have ho' : overlapping (sortBy Piece.lo ps) = false := by simpa using ho
    exact ⟨fun _ => (hno.1 ho').imp Or.inl, fun _ => ⟨_, rfl⟩⟩

/-- The fragments of the crate's own test. -/
def sampleFrags : List (Nat × Seq) :=
  [(10, [.range 0 10, .holes 10 17 (.u64 [12, 15]), .sorted (.u64 [20, 25, 30])]),
   (20, [.array (.u64 [50, 40])])]

example : ∃ ix, new sampleFrags = .ok ix ∧ [get ix 16, get ix 15, get ix 40, get ix 61] =
    [some (some (10 * 4294967296 + 14)), some none, some (some (20 * 4294967296 + 1)), some none] :=
  ⟨_, rfl, by decide +kernel⟩

end Index
end Verif.RowIds
