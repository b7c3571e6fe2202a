import Verif.Pq.LemmasSearch
import Verif.Pq.PropsPq
/-!
# C108: a search of a product-quantized partition gives the nearest of the rows that the filter selects, within the bounds
-/
namespace Verif.Pq

/-- The rows that the filter selects, each with the distance of the query and the vector that the row is quantized to, within the bounds `lo ≤ d < hi`. -/
def truth (dist : List Int → Int) (rows : List (Nat × List Int)) (recs : List (List Int)) (sel : Option (Nat → Bool)) (lo hi : Option Int) : List (Int × Nat) :=
  (((rows.zip recs).filter (fun p => sel.all (fun f => f p.1.1))).map (fun p => (dist p.2, p.1.1))).filter
    (fun z => lo.all (fun l => decide (l ≤ z.1)) && hi.all (fun h => decide (z.1 < h)))

/-- What the rows are quantized to. -/
def AllQuantized (q : Quantizer) (rows : List (Nat × List Int)) (recs : List (List Int)) : Prop :=
  recs.length = rows.length ∧ ∀ (j : Nat) (r : Nat × List Int) (x : List Int), rows[j]? = some r → recs[j]? = some x → Quantized q r.2 x

/-- C108, for both formats. -/
def C108_statement : Prop :=
  ∀ (q : Quantizer) (rows : List (Nat × List Int)), Valid q → (∀ r ∈ rows, r.2.length = q.dim) → ∃ recs, AllQuantized q rows recs ∧
    ∀ (a : Arch) (query : List Int) (sel : Option (Nat → Bool)) (k : Nat) (lo hi : Option Int), query.length = q.dim → 0 < k →
      (∀ sort, SortsNodes sort → ∃ s res, Storage.build q rows = some s ∧ s.search a sort query sel k lo hi = some res ∧
        Nearest (truth (fun x => unit * q.metric.dist query x) rows recs sel lo hi) k res) ∧
      (q.bits = 8 → ∀ order, Sorts order → ∃ p res, Page.build q rows = some p ∧ p.search a order query sel k lo hi = some res ∧
        Nearest (truth (fun x => unit * q.metric.dist query x) rows recs sel lo hi) k res)

/-- The vectors of the codes of rows. -/
def recsOf (q : Quantizer) (rows : List (Nat × List Int)) : List (List Int) := rows.map (fun r => reconstruct q (unpack q.bits (codeD q r.2)))

theorem recsOf_quantized {q : Quantizer} (hq : Valid q) {rows : List (Nat × List Int)} (h : Sized q rows) : AllQuantized q rows (recsOf q rows) := by
  refine ⟨by simp [recsOf], ?_⟩
  intro j r x hr hx
  unfold recsOf at hx
  rw [List.getElem?_map, hr] at hx
  simp only [Option.map_some, Option.some.injEq] at hx
  subst hx
  have := codeD_spec hq (h r (List.mem_of_getElem? hr))
  exact ⟨_, this.choice, rfl, this.best⟩

theorem truth_eq (q : Quantizer) (query : List Int) (rows : List (Nat × List Int)) (sel : Option (Nat → Bool)) (lo hi : Option Int) :
    truth (fun x => unit * (q.metric.dist query x + dotExtra q)) rows (recsOf q rows) sel lo hi =
      (candidates q query sel rows).filter (fun z => inBounds lo hi z.1) := by
  unfold truth candidates
  have : ((rows.zip (recsOf q rows)).filter (fun p => sel.all (fun f => f p.1.1))).map (fun p => (unit * (q.metric.dist query p.2 + dotExtra q), p.1.1)) =
      (chosen sel rows).map (fun r => (reported q query r, r.1)) := by
    induction rows with
    | nil => cases sel <;> rfl
    | cons r rows ih =>
      unfold recsOf at ih ⊢
      rw [List.map_cons, List.zip_cons_cons, List.filter_cons]
      cases sel with
      | none =>
        simp only [Option.all_none, if_true, List.map_cons] at ih ⊢
        rw [ih]
        unfold chosen reported
        rw [extra_eq]
        rfl
      | some f =>
        unfold chosen at ih ⊢
        simp only [Option.all_some] at ih ⊢
        rw [List.filter_cons]
        split
        · rw [List.map_cons, List.map_cons, ih]
          unfold reported
          rw [extra_eq]
        · exact ih
  rw [this]
  rfl

/-- C108 in part: for all metrics, with the distance that is reported for dot (`dotExtra`); in the third format with 8 bits or a filter. -/
theorem C108_search_partial (q : Quantizer) (rows : List (Nat × List Int)) (hq : Valid q) (h : ∀ r ∈ rows, r.2.length = q.dim) : ∃ recs, AllQuantized q rows recs ∧
    ∀ (a : Arch) (query : List Int) (sel : Option (Nat → Bool)) (k : Nat) (lo hi : Option Int), query.length = q.dim →
      (q.bits = 8 ∨ sel.isSome → ∀ sort, SortsNodes sort → ∃ s res, Storage.build q rows = some s ∧ s.search a sort query sel k lo hi = some res ∧
        Nearest (truth (fun x => unit * (q.metric.dist query x + dotExtra q)) rows recs sel lo hi) k res) ∧
      (q.bits = 8 → 0 < k ∨ (lo = none ∧ hi = none) → ∀ order, Sorts order → ∃ p res, Page.build q rows = some p ∧ p.search a order query sel k lo hi = some res ∧
        Nearest (truth (fun x => unit * (q.metric.dist query x + dotExtra q)) rows recs sel lo hi) k res) := by
  refine ⟨_, recsOf_quantized hq h, fun a query sel k lo hi hl => ?_⟩
  simp only [truth_eq]
  refine ⟨fun hb sort hs => ?_, fun hb hk order ho => ?_⟩
  · obtain ⟨res, r1, r2⟩ := storage_search hq a h hs hl sel hb k lo hi
    exact ⟨_, res, storage_build hq h, r1, r2⟩
  · obtain ⟨res, r1, r2⟩ := page_search hq hb a h ho hl sel hk
    exact ⟨_, res, page_build hq hb h, r1, r2⟩

/-- C108 in full for L2 and 8 bits, in both formats. -/
theorem C108_l2_partial (q : Quantizer) (rows : List (Nat × List Int)) (hq : Valid q) (hm : q.metric = .l2) (hb : q.bits = 8) (h : ∀ r ∈ rows, r.2.length = q.dim) :
    ∃ recs, AllQuantized q rows recs ∧
    ∀ (a : Arch) (query : List Int) (sel : Option (Nat → Bool)) (k : Nat) (lo hi : Option Int), query.length = q.dim → 0 < k →
      (∀ sort, SortsNodes sort → ∃ s res, Storage.build q rows = some s ∧ s.search a sort query sel k lo hi = some res ∧
        Nearest (truth (fun x => unit * q.metric.dist query x) rows recs sel lo hi) k res) ∧
      (∀ order, Sorts order → ∃ p res, Page.build q rows = some p ∧ p.search a order query sel k lo hi = some res ∧
        Nearest (truth (fun x => unit * q.metric.dist query x) rows recs sel lo hi) k res) := by
  obtain ⟨recs, h1, h2⟩ := C108_search_partial q rows hq h
  refine ⟨recs, h1, fun a query sel k lo hi hl hk => ?_⟩
  have h3 := h2 a query sel k lo hi hl
  have he : dotExtra q = 0 := by unfold dotExtra; rw [hm]; rfl
  simp only [he, Int.add_zero] at h3
  exact ⟨h3.1 (Or.inl hb), h3.2 hb (Or.inl hk)⟩

/-- The nearest ones are among the candidates, none of which that is left out is nearer. -/
theorem C108_nearest_mem {cands res : List (Int × Nat)} {k : Nat} (h : Nearest cands k res) :
    (∀ x ∈ res, x ∈ cands) ∧ res.length ≤ k ∧ (cands.length ≤ k → res.Perm cands) ∧ ∀ y ∈ cands, y ∉ res → res.length = k ∧ ∀ x ∈ res, x.1 ≤ y.1 := by
  obtain ⟨rest, h1, h2, h3, h4⟩ := h
  have hlen := h1.length_eq
  rw [List.length_append] at hlen
  refine ⟨fun x hx => h1.mem_iff.1 (List.mem_append_left _ hx), by omega, fun hk => ?_, fun y hy hn => ?_⟩
  · have : rest = [] := List.length_eq_zero_iff.1 (by omega)
    subst this
    simpa using h1
  · rcases List.mem_append.1 (h1.mem_iff.2 hy) with h | h
    · exact absurd h hn
    · have := List.length_pos_of_mem h
      exact ⟨by omega, fun x hx => h4 x hx y h⟩

/-- A sort of nodes. -/
def insertNode (n : Node) : List Node → List Node
  | [] => [n]
  | m :: ms => if n.dist ≤ m.dist then n :: m :: ms else m :: insertNode n ms

def sortNodes : List Node → List Node
  | [] => []
  | n :: ns => insertNode n (sortNodes ns)

theorem insertNode_perm (n : Node) : ∀ ns, (insertNode n ns).Perm (n :: ns)
  | [] => List.Perm.refl _
  | m :: ms => by
    unfold insertNode
    split
    · exact List.Perm.refl _
    · exact ((insertNode_perm n ms).cons m).trans (List.Perm.swap n m ms)

theorem sortNodes_sorts : SortsNodes sortNodes := by
  intro ns
  induction ns with
  | nil => exact ⟨List.Perm.refl _, List.Pairwise.nil⟩
  | cons n ns ih =>
    refine ⟨(insertNode_perm n _).trans (ih.1.cons n), ?_⟩
    unfold sortNodes
    generalize sortNodes ns = l at ih
    have hl := ih.2
    clear ih
    induction l with
    | nil => simp [insertNode]
    | cons m ms ih2 =>
      obtain ⟨h1, h2⟩ := List.pairwise_cons.1 hl
      unfold insertNode
      split
      · rename_i hle
        refine List.pairwise_cons.2 ⟨?_, hl⟩
        intro x hx
        rcases List.mem_cons.1 hx with rfl | hx
        · exact hle
        · have := h1 x hx; omega
      · rename_i hle
        refine List.pairwise_cons.2 ⟨?_, ih2 h2⟩
        intro x hx
        rcases List.mem_cons.1 ((insertNode_perm n ms).mem_iff.1 hx) with rfl | hx
        · omega
        · exact h1 x hx

/-- In the third format with 4 bits and without a filter, on x86-64, the farthest of 16 rows is returned as the nearest: the row 7 is at distance 2 of the query and
all others at distance 1. -/
theorem C108_farthest_violated : (Storage.build (small .l2 0 1) ((7, [1, 1]) :: List.replicate 15 (8, [1, 0]))).bind (fun s => s.search .x86 sortNodes [0, 0] none 1 none none) =
    some [(0, 7)] := by decide +kernel

theorem C108_violated : ¬C108_statement := by
  intro h
  obtain ⟨recs, _, h2⟩ := h (small .l2 0 1) [(7, [1, 1])] (small_valid _ _ _) (by intro r hr; simp at hr; subst hr; rfl)
  obtain ⟨s, res, h3, h4, _⟩ := (h2 .x86 [0, 0] none 1 none none rfl (by decide)).1 sortNodes sortNodes_sorts
  obtain ⟨s', h5, h6⟩ := C105_few_rows_violated (small .l2 0 1) [(7, [1, 1])] (small_valid _ _ _) rfl (by intro r hr; simp at hr; subst hr; rfl) (by simp) (by simp)
  rw [h3] at h5
  have := Option.some.inj h5
  subst this
  unfold Storage.search Storage.nodes at h4
  rw [h6] at h4
  exact absurd h4 (by simp)

/-- There are orders as `sort_to_indices` gives them. -/
theorem C108_sorts : ∃ order, Sorts order := by
  refine ⟨fun ds => (List.range ds.length).mergeSort (fun i j => decide (ds.getD i 0 ≤ ds.getD j 0)), fun ds => ⟨List.mergeSort_perm _ _, ?_⟩⟩
  intro r hr
  rw [pick_eq 0 (fun i hi => List.mem_range.1 ((List.mergeSort_perm _ _).mem_iff.1 hi))] at hr
  rw [← Option.some.inj hr]
  rw [List.pairwise_map]
  have := List.pairwise_mergeSort (le := fun i j => decide (ds.getD i 0 ≤ ds.getD j 0)) (by intro a b c; simp; omega) (by intro a b; simp; omega) (List.range ds.length)
  exact this.imp (by intro a b h; simpa using h)

/-- The third format with 4 bits and a filter, with bounds: of three rows, one is not selected and one is not within the bounds. -/
theorem C108_nonvacuous : Valid (small .l2 0 1) ∧ SortsNodes sortNodes ∧
    (Storage.build (small .l2 0 1) [(7, [1, 1]), (8, [1, 0]), (9, [0, 0])]).bind (fun s => s.search .x86 sortNodes [0, 0] (some (fun id => decide (id ≠ 8))) 5 (some 1) none) =
      some [(unit * 2, 7)] := ⟨small_valid _ _ _, sortNodes_sorts, by decide +kernel⟩

end Verif.Pq
