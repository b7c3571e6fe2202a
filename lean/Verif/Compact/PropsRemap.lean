import Verif.Compact.LemmasRemap
import Verif.RowIds.PropsSequence
/-!
# C26: row addresses after compaction
-/
namespace Verif.Compact

attribute [local irreducible] SIZE

/-- Fragments as a compaction task finds them: in the order of their ids, none empty, fewer than 2³² rows. -/
def TaskOk {α : Type} (old : List (Data α)) : Prop :=
  old ≠ [] ∧ old.Pairwise (fun a b => a.id < b.id) ∧ ∀ f ∈ old, 0 < f.rows.length ∧ f.rows.length < SIZE

/-- The new fragments hold the live rows of the old ones in order, and no deleted rows. -/
def Rewritten {α : Type} (old new : List (Data α)) : Prop :=
  (∀ g ∈ new, g.id < SIZE ∧ g.rows.length < SIZE ∧ ∀ o, g.dead o = false) ∧
  new.flatMap (·.rows) = (scan old).map (·.2)

/-- Some row of the task is live, or its first fragment is not fragment 0. -/
def NotGone {α : Type} (old : List (Data α)) : Prop := scan old ≠ [] ∨ ∀ f ∈ old.head?, f.id ≠ 0

theorem scan_rows {α : Type} : ∀ (new : List (Data α)), (∀ g ∈ new, ∀ o, g.dead o = false) →
    (scan new).map (·.2) = new.flatMap (·.rows)
  | [], _ => rfl
  | g :: gs, h => by
    have ih := scan_rows gs (fun x hx => h x (List.mem_cons_of_mem _ hx))
    have e2 : (scan (g :: gs)).map (·.2) =
        ((g.rows.zipIdx.filter (fun e => !g.dead e.2)).map (·.1)) ++ (scan gs).map (·.2) := by
      simp [scan, Function.comp_def]
    rw [e2, ih, List.filter_eq_self.2 (by simp [h g (List.mem_cons_self ..)])]
    simp [List.zipIdx_map_fst]

theorem shape_pairwise {α : Type} {old : List (Data α)} (h : TaskOk old) :
    (shape old).Pairwise (fun a b => a.id < b.id) := by
  unfold shape
  rw [List.pairwise_map]
  exact h.2.1

theorem shape_sized {α : Type} {old : List (Data α)} (h : TaskOk old) : Sized (shape old) := by
  intro f hf
  obtain ⟨g, hg, rfl⟩ := List.mem_map.1 hf
  exact h.2.2 g hg

/-- The map a task produces, in closed form. -/
theorem rewriteMap_eq {α : Type} (old new : List (Data α)) (h : TaskOk old) (hg : NotGone old)
    (hn : ∀ g ∈ new, g.id < SIZE ∧ g.rows.length < SIZE ∧ ∀ o, g.dead o = false) :
    rewriteMap ((addrs (shape old)).length + 1) old new = some (fun k =>
      if k ∈ (addrs (shape old)).filter (fun x => decide (x ∉ (scan old).map (·.1))) then some none
      else ((((scan old).map (·.1)).zip ((scan new).map (·.1))).lookup k).map some) := by
  have hs := shape_sized h
  have hsorted := addrs_sorted (fun f hf => Nat.le_of_lt (hs f hf).2) (shape_pairwise h)
  have hsub := scan_sublist old
  have hrows : Bm.ofList ((scan old).map (·.1)) = (scan old).map (·.1) :=
    Bm.Sorted.ext (Bm.sorted_ofList _) (hsorted.sublist hsub) (fun x => by simp)
  obtain ⟨f, fs, hf⟩ : ∃ f fs, old = f :: fs := by
    cases old with
    | nil => exact absurd rfl h.1
    | cons f fs => exact ⟨f, fs, rfl⟩
  have hfirst : f.id * SIZE ∈ addrs (shape old) := by
    rw [mem_addrs]
    have := (h.2.2 f (by rw [hf]; simp)).1
    exact ⟨⟨f.id, f.rows.length⟩, by rw [hf]; simp [shape], Nat.le_refl _, by dsimp only; omega⟩
  have hnd : (addrs (shape old)).Nodup := hsorted.imp (fun h => Nat.ne_of_lt h)
  have htail : 0 ∉ (addrs (shape old)).tail := by
    intro h0
    cases ha : addrs (shape old) with
    | nil => rw [ha] at h0; simp at h0
    | cons a as =>
      rw [ha] at h0 hsorted
      have := (List.pairwise_cons.1 hsorted).1 0 h0
      omega
  have hahead : ahead (shape old) (MSt.init ((scan old).map (·.1)) (shape old)).expected = addrs (shape old) := by
    rw [hf]
    simp only [MSt.init, shape, List.map_cons, List.head?_cons, Option.map_some, Option.getD_some]
    exact ahead_start
  have hinside : Inside (shape old) (MSt.init ((scan old).map (·.1)) (shape old)).expected := by
    intro g gs hgs
    have hgp := (hs g (by rw [hgs]; simp)).1
    simp only [MSt.init, hgs, List.head?_cons, Option.map_some, Option.getD_some]
    omega
  have hz : (scan old).map (·.1) = [] → 0 ∉ addrs (shape old) := by
    intro he h0
    have he' : scan old = [] := by simpa using he
    rcases hg with hg | hg
    · exact hg he'
    · have hne := hg f (by rw [hf]; simp)
      obtain ⟨g, hgm, h1, _⟩ := mem_addrs.1 h0
      have hg0 : g.id = 0 := by
        have : g.id * SIZE = 0 := by omega
        rcases Nat.mul_eq_zero.1 this with h | h
        · exact h
        · have := SIZE_pos; omega
      obtain ⟨d, hd, rfl⟩ := List.mem_map.1 hgm
      rw [hf] at hd
      rcases List.mem_cons.1 hd with rfl | hd
      · exact hne hg0
      · have hp := h.2.1
        rw [hf] at hp
        have := (List.pairwise_cons.1 hp).1 d hd
        dsimp only at hg0
        omega
  have hm := missing_spec ((addrs (shape old)).length + 1) (MSt.init ((scan old).map (·.1)) (shape old))
    ((scan old).map (·.1)) hs hinside (.inl ⟨rfl, rfl⟩)
    (by show List.Sublist _ (ahead (shape old) _); rw [hahead]; exact hsub)
    (by show (ahead (shape old) _).Nodup; rw [hahead]; exact hnd)
    (by show _ → 0 ∉ ahead (shape old) _; rw [hahead]; exact hz)
    (by show 0 ∉ (ahead (shape old) _).tail; rw [hahead]; exact htail)
    (by show (ahead (shape old) _).length < _; rw [hahead]; exact Nat.lt_succ_self _)
  have hm' : missing ((addrs (shape old)).length + 1) (MSt.init ((scan old).map (·.1)) (shape old)) =
      some ((addrs (shape old)).filter (fun x => decide (x ∉ (scan old).map (·.1)))) := by
    rw [hm]; show some ((ahead (shape old) _).filter _) = _; rw [hahead]
  unfold rewriteMap transpose
  rw [hrows]
  show (match missing _ (MSt.init _ (shape old)) with | none => none | some dead => _) = _
  rw [hm']
  show some _ = some _
  have hnew := newIds_eq new hn
  rw [show new.map (fun f => (⟨f.id, f.rows.length⟩ : FR)) = shape new from rfl, hnew]

/-- C26 for surviving rows: the `i`-th row of the task keeps its place, and its old address maps to the address at
which a scan of the new fragments finds it. -/
theorem C26_moved {α : Type} (old new : List (Data α)) (h : TaskOk old) (hg : NotGone old) (hw : Rewritten old new) :
    ∃ m, rewriteMap ((addrs (shape old)).length + 1) old new = some m ∧
      ∀ (i a : Nat) (x : α), (scan old)[i]? = some (a, x) →
        ∃ a', (scan new)[i]? = some (a', x) ∧ m a = some (some a') := by
  refine ⟨_, rewriteMap_eq old new h hg hw.1, ?_⟩
  intro i a x hi
  have hvals : (scan new).map (·.2) = (scan old).map (·.2) :=
    (scan_rows new (fun g hg => (hw.1 g hg).2.2)).trans hw.2
  have h2 : ((scan new)[i]?).map (·.2) = some x := by
    have := congrArg (fun l => l[i]?) hvals
    simp only [List.getElem?_map, hi, Option.map_some] at this
    exact this
  cases hn : (scan new)[i]? with
  | none => rw [hn] at h2; cases h2
  | some p =>
    obtain ⟨a', y⟩ := p
    rw [hn] at h2
    simp only [Option.map_some, Option.some.injEq] at h2
    subst h2
    refine ⟨a', rfl, ?_⟩
    have hmem : a ∈ (scan old).map (·.1) := List.mem_map.2 ⟨_, List.mem_of_getElem? hi, rfl⟩
    have hnd : ((scan old).map (·.1)).Nodup := by
      have hs := shape_sized h
      have := (addrs_sorted (fun f hf => Nat.le_of_lt (hs f hf).2) (shape_pairwise h)).sublist (scan_sublist old)
      exact this.imp (fun h => Nat.ne_of_lt h)
    rw [if_neg (by rw [List.mem_filter]; simp only [decide_eq_true_eq]; exact fun hx => hx.2 hmem)]
    rw [lookup_zip _ _ hnd i a a' (by simp [hi]) (by simp [hn])]
    rfl

/-- C26 for one live row of one fragment: its old address maps to where a new fragment holds it. -/
theorem C26_live {α : Type} (old new : List (Data α)) (h : TaskOk old) (hg : NotGone old) (hw : Rewritten old new) :
    ∃ m, rewriteMap ((addrs (shape old)).length + 1) old new = some m ∧
      ∀ f ∈ old, ∀ (o : Nat) (x : α), f.rows[o]? = some x → f.dead o = false →
        ∃ g ∈ new, ∃ o', g.rows[o']? = some x ∧ m (f.id * SIZE + o) = some (some (g.id * SIZE + o')) := by
  obtain ⟨m, h1, h2⟩ := C26_moved old new h hg hw
  refine ⟨m, h1, ?_⟩
  intro f hf o x hx hd
  have hmem : (f.id * SIZE + o, x) ∈ scan old := mem_scan.2 ⟨f, hf, o, hx, hd, rfl⟩
  obtain ⟨i, hi⟩ := List.mem_iff_getElem?.1 hmem
  obtain ⟨a', h3, h4⟩ := h2 i _ x hi
  obtain ⟨g, hg', o', e1, _, e2⟩ := mem_scan.1 (List.mem_of_getElem? h3)
  exact ⟨g, hg', o', e1, by rw [h4, e2]⟩

/-- C26 for deleted rows: the old address maps to nothing. -/
theorem C26_deleted {α : Type} (old new : List (Data α)) (h : TaskOk old) (hg : NotGone old) (hw : Rewritten old new) :
    ∃ m, rewriteMap ((addrs (shape old)).length + 1) old new = some m ∧
      ∀ f ∈ old, ∀ o, o < f.rows.length → f.dead o = true → m (f.id * SIZE + o) = some none := by
  refine ⟨_, rewriteMap_eq old new h hg hw.1, ?_⟩
  intro f hf o ho hd
  rw [if_pos]
  rw [List.mem_filter]
  refine ⟨mem_addrs.2 ⟨⟨f.id, f.rows.length⟩, List.mem_map.2 ⟨f, hf, rfl⟩, by dsimp only; omega, by dsimp only; omega⟩, ?_⟩
  simp only [decide_eq_true_eq]
  intro hx
  obtain ⟨⟨a, x⟩, h1, h2⟩ := List.mem_map.1 hx
  have h2' : a = f.id * SIZE + o := h2
  subst h2'
  obtain ⟨g, hg', o', e1, e2, e3⟩ := mem_scan.1 h1
  -- the address determines fragment and offset
  have hol : o' < g.rows.length := by
    rcases Nat.lt_or_ge o' g.rows.length with hlt | hge
    · exact hlt
    · rw [List.getElem?_eq_none hge] at e1; cases e1
  have hlo := (h.2.2 f hf).2
  have hlg := (h.2.2 g hg').2
  have hdiv : ∀ a b : Nat, b < SIZE → (a * SIZE + b) / SIZE = a := by
    intro a b hb
    rw [Nat.mul_comm, Nat.mul_add_div SIZE_pos, Nat.div_eq_of_lt hb, Nat.add_zero]
  have hid : f.id = g.id := by rw [← hdiv f.id o (by omega), ← hdiv g.id o' (by omega), e3]
  have hoo : o = o' := by rw [hid] at e3; omega
  have hfg : f = g := by
    apply Classical.byContradiction
    intro hne
    have hp := h.2.1
    obtain ⟨i, hi, hfi⟩ := List.mem_iff_getElem.1 hf
    obtain ⟨j, hj, hgj⟩ := List.mem_iff_getElem.1 hg'
    rw [List.pairwise_iff_getElem] at hp
    rcases Nat.lt_trichotomy i j with hlt | heq | hgt
    · have := hp i j hi hj hlt; rw [hfi, hgj] at this; omega
    · subst heq; exact hne (hfi.symm.trans hgj)
    · have := hp j i hj hi hgt; rw [hfi, hgj] at this; omega
  rw [hoo, hfg, e2] at hd
  cases hd

/-- C26 for other addresses: a task's map says nothing about rows outside the task. -/
theorem C26_outside {α : Type} (old new : List (Data α)) (h : TaskOk old) (hg : NotGone old) (hw : Rewritten old new) :
    ∃ m, rewriteMap ((addrs (shape old)).length + 1) old new = some m ∧
      ∀ a, (∀ f ∈ old, ∀ o, o < f.rows.length → a ≠ f.id * SIZE + o) → m a = none := by
  refine ⟨_, rewriteMap_eq old new h hg hw.1, ?_⟩
  intro a ha
  have hna : a ∉ addrs (shape old) := by
    intro hx
    obtain ⟨f, hf, h1, h2⟩ := mem_addrs.1 hx
    obtain ⟨d, hd, rfl⟩ := List.mem_map.1 hf
    dsimp only at h1 h2
    exact ha d hd (a - d.id * SIZE) (by omega) (by omega)
  rw [if_neg (fun hx => hna (List.mem_filter.1 hx).1)]
  rw [lookup_zip_none _ _ _ (fun hx => hna ((scan_sublist old).subset hx))]
  rfl

/-! ## Several tasks -/

theorem merged_none {ms : List (Nat → Option (Option Nat))} {k : Nat} (h : ∀ m ∈ ms, m k = none) : merged ms k = none := by
  induction ms with
  | nil => rfl
  | cons m ms ih =>
    simp [merged, ih (fun x hx => h x (List.mem_cons_of_mem _ hx)), h m (List.mem_cons_self ..)]

/-- C26 for a whole compaction: merging the maps of tasks loses nothing, as long as no other task has the same
address. -/
theorem C26_tasks (ms : List (Nat → Option (Option Nat))) (i : Nat) (m : Nat → Option (Option Nat)) (k : Nat)
    (hi : ms[i]? = some m) (hother : ∀ j m', ms[j]? = some m' → j ≠ i → m' k = none) : merged ms k = m k := by
  induction ms generalizing i with
  | nil => simp at hi
  | cons x xs ih =>
    cases i with
    | zero =>
      simp only [List.getElem?_cons_zero, Option.some.injEq] at hi
      subst hi
      have : merged xs k = none := merged_none (by
        intro m' hm'
        obtain ⟨j, hj⟩ := List.mem_iff_getElem?.1 hm'
        exact hother (j + 1) m' (by simpa using hj) (by omega))
      simp [merged, this]
    | succ i =>
      have hx : x k = none := hother 0 x rfl (by omega)
      have := ih i (by simpa using hi) (fun j m' hj hne => hother (j + 1) m' (by simpa using hj) (by omega))
      simp [merged, this, hx]

/-! ## All rows deleted -/

/-- Without the condition that something of the task is live. -/
def C26_statement : Prop :=
  ∀ (old new : List (Data Nat)), TaskOk old → Rewritten old new →
    ∃ fuel m, rewriteMap fuel old new = some m ∧
      ∀ f ∈ old, ∀ o, o < f.rows.length → f.dead o = true → m (f.id * SIZE + o) = some none

unseal SIZE in
/-- All rows of fragment 0 deleted: the iterator takes the missing row id for row 0, so that row 0 of fragment 0
has no entry and indices keep its address (remapping.rs:115-119). -/
theorem C26_violated : ¬ C26_statement := by
  intro h
  obtain ⟨fuel, m, h1, h2⟩ := h [⟨0, [7, 8], fun _ => true⟩] []
    ⟨by simp, by simp, by simp [SIZE]⟩ ⟨by simp, by simp [scan]⟩
  have h3 := h2 _ (List.mem_cons_self ..) 0 (by simp) rfl
  have e : ∀ n, rewriteMap n [(⟨0, [7, 8], fun _ => true⟩ : Data Nat)] [] = some m → m 0 = none := by
    intro n hn
    match n with
    | 0 => simp [rewriteMap, transpose, missing] at hn
    | 1 => 
      simp [rewriteMap, transpose, missing, MSt.init, MSt.val, MSt.rest', SIZE, scan, Bm.ofList, Bm.union, List.zipIdx] at hn
    | 2 =>
      simp [rewriteMap, transpose, missing, MSt.init, MSt.val, MSt.rest', SIZE, scan, Bm.ofList, Bm.union, List.zipIdx] at hn
    | n + 3 =>
      simp [rewriteMap, transpose, missing, MSt.init, MSt.val, MSt.rest', SIZE, scan, Bm.ofList, Bm.union, List.zipIdx,
        nextStart] at hn
      rw [← hn]
      simp
  rw [show (0 : Nat) * SIZE + 0 = 0 by simp] at h3
  rw [e fuel h1] at h3
  cases h3

/-! A case: fragments 2 and 5 with deletions, rewritten into fragments 7 and 8. -/
private def xold : List (Data Nat) := [⟨2, [10, 11, 12], fun o => o == 1⟩, ⟨5, [20, 21], fun o => o == 0⟩]
private def xnew : List (Data Nat) := [⟨7, [10, 12], fun _ => false⟩, ⟨8, [21], fun _ => false⟩]

unseal SIZE in
example : ∃ m, rewriteMap 6 xold xnew = some m ∧
    ∀ f ∈ xold, ∀ (o : Nat) (x : Nat), f.rows[o]? = some x → f.dead o = false →
      ∃ g ∈ xnew, ∃ o', g.rows[o']? = some x ∧ m (f.id * SIZE + o) = some (some (g.id * SIZE + o')) :=
  C26_live xold xnew ⟨by simp [xold], by simp [xold], by simp [xold, SIZE]⟩
    (.inl (by simp [xold, scan, List.zipIdx])) ⟨by simp [xnew, SIZE], by simp [xnew, xold, scan, List.zipIdx]⟩

/-! ## Stable row ids -/

open RowIds

/-- With stable row ids compaction must give the new fragments, in order, the row ids of the surviving rows. -/
def C26_stable_statement : Prop :=
  ∀ (old : List (Seq × List Nat)) (sizes : List Nat),
    (∀ e ∈ old, (∀ sg ∈ e.1, sg.Good ∧ Seg.Small sg.iter) ∧ e.2.Pairwise (· < ·) ∧
      (∀ p ∈ e.2, p < (Seq.iter e.1).length) ∧ (Seq.iter e.1).length < 4294967296) →
    sizes.sum = (old.flatMap (fun e => Seq.withoutPositions e.2 (Seq.iter e.1))).length →
    ∃ cs, rechunkStable old sizes = some cs ∧
      cs.flatMap Seq.iter = old.flatMap (fun e => Seq.withoutPositions e.2 (Seq.iter e.1)) ∧
      cs.map (fun c => (Seq.iter c).length) = sizes

/-- Deleting an inner row of a fragment numbered 0..8 and splitting the rest into two fragments loses row ids: the
masked segment is a bitmap or a range with holes, which `slice` cannot cut (C11). -/
theorem C26_stable_violated : ¬ C26_stable_statement := by
  intro h
  obtain ⟨cs, h1, h2, h3⟩ := h [([.range 0 9], [3])] [4, 4]
    (by
      intro e he
      simp only [List.mem_singleton] at he
      subst he
      refine ⟨?_, by simp, ?_, by decide⟩
      · intro sg hsg
        simp only [List.mem_singleton] at hsg
        subst hsg
        exact ⟨⟨by simp [Seg.WF], fun _ => ⟨0, 9, rfl⟩⟩, by refine ⟨?_, ?_⟩ <;> decide⟩
      · intro p hp
        simp only [List.mem_singleton] at hp
        subst hp
        decide) (by decide)
  have e : rechunkStable [([.range 0 9], [3])] [4, 4] = some cs → cs.flatMap Seq.iter ≠ [0, 1, 2, 4, 5, 6, 7, 8] := by
    intro hc
    have : (match rechunkStable [([.range 0 9], [3])] [4, 4] with
      | some cs => decide (cs.flatMap Seq.iter ≠ [0, 1, 2, 4, 5, 6, 7, 8])
      | none => true) = true := by decide
    rw [hc] at this
    simpa using this
  exact e h1 (h2.trans (by decide))

theorem maskAll_spec : ∀ (old : List (Seq × List Nat)),
    (∀ e ∈ old, (∀ sg ∈ e.1, sg.Good ∧ Seg.Small sg.iter) ∧ e.2.Pairwise (· < ·) ∧
      (∀ p ∈ e.2, p < (Seq.iter e.1).length) ∧ (Seq.iter e.1).length < 4294967296) →
    (∀ e ∈ old, e.2 = [] → ∀ sg ∈ e.1, sg.Sliceable ∧ sg.iter ≠ []) →
    (∀ e ∈ old, ∀ q', Seq.mask e.1 e.2 = some q' → ∀ sg ∈ q', sg.Sliceable) →
    ∃ qs, maskAll old = some qs ∧ (∀ q ∈ qs, ∀ sg ∈ q, sg.WF ∧ sg.Sliceable ∧ sg.iter ≠ []) ∧
      qs.flatMap Seq.iter = old.flatMap (fun e => Seq.withoutPositions e.2 (Seq.iter e.1))
  | [], _, _, _ => ⟨[], rfl, by simp, rfl⟩
  | (q, ds) :: r, h1, h2, h3 => by
    obtain ⟨qs, e1, e2, e3⟩ := maskAll_spec r (fun e he => h1 e (List.mem_cons_of_mem _ he))
      (fun e he => h2 e (List.mem_cons_of_mem _ he)) (fun e he => h3 e (List.mem_cons_of_mem _ he))
    obtain ⟨a1, a2, a3, a4⟩ := h1 _ (List.mem_cons_self ..)
    by_cases hd : ds = []
    · subst hd
      refine ⟨q :: qs, by simp [maskAll, e1], ?_, ?_⟩
      · intro q' hq' sg hsg
        rcases List.mem_cons.1 hq' with rfl | hq'
        · have := h2 _ (List.mem_cons_self ..) rfl sg hsg
          exact ⟨(a1 sg hsg).1.1, this.1, this.2⟩
        · exact e2 q' hq' sg hsg
      · simp only [List.flatMap_cons, e3]
        congr 1
        show Seq.iter q = ((Seq.iter q).zipIdx.filter (fun p => !([] : List Nat).contains p.2)).map Prod.fst
        rw [List.filter_eq_self.2 (by simp), List.zipIdx_map_fst]
    · obtain ⟨q', m1, m2, m3⟩ := Seq.C12_mask q a1 ds a2 a3 a4
      refine ⟨q' :: qs, by simp [maskAll, hd, m1, e1], ?_, ?_⟩
      · intro p hp sg hsg
        rcases List.mem_cons.1 hp with rfl | hp
        · exact ⟨(m3 sg hsg).1.1, h3 _ (List.mem_cons_self ..) _ m1 sg hsg, (m3 sg hsg).2⟩
        · exact e2 p hp sg hsg
      · simp only [List.flatMap_cons, e3, m2]

/-- C26 with stable row ids, when the remaining ids of each fragment are kept as ranges or arrays: the new fragments
get, in order, the row ids of the surviving rows.  Missing: masked segments kept as a range with holes or a bitmap. -/
theorem C26_stable_partial (old : List (Seq × List Nat)) (sizes : List Nat)
    (h1 : ∀ e ∈ old, (∀ sg ∈ e.1, sg.Good ∧ Seg.Small sg.iter) ∧ e.2.Pairwise (· < ·) ∧
      (∀ p ∈ e.2, p < (Seq.iter e.1).length) ∧ (Seq.iter e.1).length < 4294967296)
    (h2 : ∀ e ∈ old, e.2 = [] → ∀ sg ∈ e.1, sg.Sliceable ∧ sg.iter ≠ [])
    (h3 : ∀ e ∈ old, ∀ q', Seq.mask e.1 e.2 = some q' → ∀ sg ∈ q', sg.Sliceable)
    (hs : sizes.sum = (old.flatMap (fun e => Seq.withoutPositions e.2 (Seq.iter e.1))).length) :
    ∃ cs, rechunkStable old sizes = some cs ∧
      cs.flatMap Seq.iter = old.flatMap (fun e => Seq.withoutPositions e.2 (Seq.iter e.1)) ∧
      cs.map (fun c => (Seq.iter c).length) = sizes := by
  obtain ⟨qs, e1, e2, e3⟩ := maskAll_spec old h1 h2 h3
  obtain ⟨cs, c1, c2, c3, _⟩ := (Seq.C11_rechunk_partial qs sizes e2).1 (by rw [e3]; exact hs)
  exact ⟨cs, by simp [rechunkStable, e1, c1], c2.trans e3, c3⟩

/-! A case: 0..8 without its last row, and 20, 10, 30 without 10, into fragments of 5, 4 and 1 rows. -/
private def xids : List (Seq × List Nat) := [([.range 0 9], [8]), ([.array (.u64 [20, 10, 30])], [1])]

example : ∃ cs, rechunkStable xids [5, 4, 1] = some cs ∧
    cs.flatMap Seq.iter = [0, 1, 2, 3, 4, 5, 6, 7, 20, 30] ∧ cs.map (fun c => (Seq.iter c).length) = [5, 4, 1] :=
  C26_stable_partial xids [5, 4, 1]
    (by
      intro e he
      simp only [xids, List.mem_cons, List.not_mem_nil, or_false] at he
      rcases he with rfl | rfl
      · refine ⟨?_, by simp, ?_, by decide⟩
        · intro sg hsg
          simp only [List.mem_singleton] at hsg
          subst hsg
          exact ⟨⟨by simp [Seg.WF], fun _ => ⟨0, 9, rfl⟩⟩, by refine ⟨?_, ?_⟩ <;> decide⟩
        · simp [Seq.iter, Seg.iter]
      · refine ⟨?_, by simp, ?_, by decide⟩
        · intro sg hsg
          simp only [List.mem_singleton] at hsg
          subst hsg
          exact ⟨⟨by simp [Seg.WF, Enc.WF, Enc.iter], fun h => absurd h (by decide)⟩, by refine ⟨?_, ?_⟩ <;> decide⟩
        · decide)
    (by simp [xids])
    (by
      intro e he q' hq'
      simp only [xids, List.mem_cons, List.not_mem_nil, or_false] at he
      rcases he with rfl | rfl
      · rw [show Seq.mask [.range 0 9] [8] = some [.range 0 8] by decide] at hq'
        cases hq'
        simp [Seg.Sliceable]
      · rw [show Seq.mask [.array (.u64 [20, 10, 30])] [1] = some [.array (.u16 20 [0, 10])] by decide] at hq'
        cases hq'
        simp [Seg.Sliceable])
    (by decide)

end Verif.Compact
