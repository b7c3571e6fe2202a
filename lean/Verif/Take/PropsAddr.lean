import Verif.Take.Lemmas
import Verif.RowIds.PropsIndex

/-!
# C31: taking rows by address and by row id
-/
namespace Verif.Take
open Verif
open Verif.Read (Frag Row Opts Cell readImpl takeRange countRows live rowAt expected requested validLen Proper
  Splits liveOffsets)
open Verif.Deletion (DV)

variable {α : Type}

/-- The address is a row of the data files (perhaps a deleted one). -/
def Physical (frags : List (Frag α)) (a : Nat) : Prop := ∃ f ∈ frags, f.id = a / U32 ∧ a % U32 < f.rows

theorem Physical.lt {frags : List (Frag α)} (hd : DatasetOK frags) {a : Nat} (h : Physical frags a) : a < U64 := by
  obtain ⟨f, hf, h1, _⟩ := h
  have := hd.ids f hf
  omega

theorem hin_of_physical {frags : List (Frag α)} (hd : DatasetOK frags) {a : Nat} (h : Physical frags a) :
    ∀ f ∈ frags, f.id = a / U32 → a % U32 < f.rows := by
  obtain ⟨g, hg, h1, h2⟩ := h
  intro f hf hid
  have e1 := find_frag hd.distinct hg h1
  have e2 := find_frag hd.distinct hf hid
  rw [e1] at e2
  cases e2
  exact h2

/-- One run of the sorted path. -/
theorem takeRun_ok (split : List α → List (List α)) (hsp : Splits split) (frags : List (Frag α)) (hd : DatasetOK frags)
    (run : Nat × List Nat) (hrun : ∀ a ∈ run.2, a / U32 = run.1) (hp : ∀ a ∈ run.2, Physical frags a)
    (hne : run.2 ≠ []) :
    ∃ rows, takeRun split frags run = .ok rows ∧ rows.map (·.data) = run.2.filterMap (rowAt? frags) := by
  obtain ⟨a, ha⟩ := List.exists_mem_of_ne_nil _ hne
  obtain ⟨f, hf, h1, h2⟩ := hp a ha
  have hid : f.id = run.1 := by rw [h1]; exact hrun a ha
  unfold takeRun getFragment
  rw [find_frag hd.distinct hf hid]
  simp only
  rw [takeRowsFrag_ok split hsp f (hd.ok f hf)]
  · refine ⟨_, rfl, ?_⟩
    apply filterMap_rowAt? hd.distinct hf
    intro b hb
    have : f.id = b / U32 := by rw [hid, hrun b hb]
    exact ⟨this, hin_of_physical hd (hp b hb) f hf this⟩
  · intro o ho
    obtain ⟨b, hb, rfl⟩ := List.mem_map.mp ho
    exact hin_of_physical hd (hp b hb) f hf (by rw [hid, hrun b hb])

theorem runs_nonempty (cur : Nat) (acc l : List Nat) (h : acc ≠ [] ∨ ∃ a m, l = a :: m ∧ a / U32 = cur) :
    ∀ r ∈ runsFrom cur acc l, r.2 ≠ [] := by
  induction l generalizing cur acc with
  | nil =>
    unfold runsFrom
    split
    · intro r hr; cases hr
    · rename_i hne
      intro r hr
      simp at hr; subst hr; exact hne
  | cons a l ih =>
    unfold runsFrom
    split
    · exact ih cur (acc ++ [a]) (Or.inl (by simp))
    · rename_i hac
      intro r hr
      rcases List.mem_cons.mp hr with rfl | hr
      · rcases h with h | ⟨b, m, e, hb⟩
        · exact h
        · cases e; exact absurd hb hac
      · exact ih (a / U32) [a] (Or.inl (by simp)) r hr

/-- C31: taking addresses of rows in the data files returns their values in the order of the request, with
duplicates, and leaves out deleted rows. -/
theorem C31_take_addresses (split : List α → List (List α)) (hsp : Splits split) (frags : List (Frag α))
    (hd : DatasetOK frags) (addrs : List Nat) (hp : ∀ a ∈ addrs, Physical frags a) :
    doTakeRows split frags addrs = .ok (addrs.filterMap (rowAt? frags)) := by
  cases addrs with
  | nil => rfl
  | cons first rest =>
    unfold doTakeRows
    simp only
    split
    · -- contiguous
      rename_i hc
      obtain ⟨c1, c2⟩ := checkLoop_contiguous (first / U32) first true true rest rfl
        ((hp first List.mem_cons_self).lt hd) hc
      obtain ⟨f, hf, h1, h2⟩ := hp first List.mem_cons_self
      have hlast := getLast_range' first rest.length (first :: rest) (by simp) c1
      have hlastmem : (first :: rest).getLast (by simp) ∈ first :: rest := List.getLast_mem _
      have hlastfrag := c2 _ hlastmem
      have hlastrows := hin_of_physical hd (hp _ hlastmem) f hf (by rw [hlastfrag, h1])
      rw [hlast] at hlastfrag hlastrows
      have hrows := (hd.ok f hf).rows
      unfold getFragment
      rw [find_frag hd.distinct hf h1]
      simp only
      rw [hlast]
      have hmod : (first + rest.length) % U32 = first % U32 + rest.length := by omega
      rw [hmod]
      rw [hmod] at hlastrows
      obtain ⟨bs, e1, e2⟩ := Read.C28_rows_partial split f ⟨false, false, false⟩
        (.range (first % U32) (first % U32 + rest.length + 1)) hsp (hd.ok f hf) rfl
        (by simp only [validLen, Bool.and_eq_true, decide_eq_true_eq]; omega)
        (by show first % U32 ≤ _; omega) (Or.inl rfl)
      rw [takeRange, e1]
      simp only
      rw [e2, expected, requested, Read.range_filter_ge,
        show first % U32 + rest.length + 1 - first % U32 = rest.length + 1 by omega]
      congr 1
      have hmap : (first :: rest).map (· % U32) = List.range' (first % U32) (rest.length + 1) := by
        rw [c1]
        have hlen : (first :: rest).length = rest.length + 1 := rfl
        apply List.ext_getElem
        · simp
        · intro i hi1 hi2
          simp only [List.getElem_map, List.getElem_range', Nat.one_mul]
          simp only [List.length_range'] at hi2
          have : i ≤ rest.length := by omega
          omega
      rw [← hmap]
      apply filterMap_rowAt? hd.distinct hf
      intro b hb
      have hb' : f.id = b / U32 := by rw [h1, c2 b hb]
      exact ⟨hb', hin_of_physical hd (hp b hb) f hf hb'⟩
    · split
      · -- sorted
        obtain ⟨r1, r2, _⟩ := runsFrom_spec (first / U32) [] (first :: rest) (by simp)
        have r3 := runs_nonempty (first / U32) [] (first :: rest) (Or.inr ⟨first, rest, rfl, rfl⟩)
        rw [List.nil_append] at r1
        have hall : ∀ run ∈ runsFrom (first / U32) [] (first :: rest),
            ∃ rows, takeRun split frags run = .ok rows ∧ rows.map (·.data) = run.2.filterMap (rowAt? frags) := by
          intro run hrun
          apply takeRun_ok split hsp frags hd run (r2 run hrun) _ (r3 run hrun)
          intro a ha
          apply hp
          rw [← r1, List.mem_flatMap]
          exact ⟨run, hrun, ha⟩
        have key : ∀ runs : List (Nat × List Nat),
            (∀ run ∈ runs, ∃ rows, takeRun split frags run = .ok rows ∧
              rows.map (·.data) = run.2.filterMap (rowAt? frags)) →
            ∃ bs, each (takeRun split frags) runs = .ok bs ∧
              bs.flatten.map (·.data) = (runs.flatMap (·.2)).filterMap (rowAt? frags) := by
          intro runs
          induction runs with
          | nil => intro _; exact ⟨[], rfl, rfl⟩
          | cons run runs ih =>
            intro h
            obtain ⟨rows, h1, h2⟩ := h run List.mem_cons_self
            obtain ⟨bs, h3, h4⟩ := ih (fun x hx => h x (List.mem_cons_of_mem _ hx))
            refine ⟨rows :: bs, ?_, ?_⟩
            · rw [each, h1]
              simp only
              rw [h3]
            · rw [List.flatten_cons, List.map_append, h2, h4, List.flatMap_cons, List.filterMap_append]
        obtain ⟨bs, h1, h2⟩ := key _ hall
        rw [h1]
        simp only
        rw [h2, r1]
      · -- unsorted
        obtain ⟨bs, h1, h2, h3⟩ := slow_reorder split hsp frags hd (first :: rest)
          (fun a ha => hin_of_physical hd (hp a ha))
        rw [h1]
        cases bs with
        | nil =>
          exfalso
          obtain ⟨f, hf, hid, _⟩ := hp first List.mem_cons_self
          exact h2.mp rfl first List.mem_cons_self f hf hid
        | cons b bs =>
          simp only
          rw [h3]

/-- C31: addresses of live rows give one row each, in order. -/
theorem C31_take_live (split : List α → List (List α)) (hsp : Splits split) (frags : List (Frag α))
    (hd : DatasetOK frags) (addrs : List Nat)
    (hp : ∀ a ∈ addrs, ∃ f ∈ frags, f.id = a / U32 ∧ a % U32 < f.rows ∧ live f.dv (a % U32) = true) :
    ∃ rows, doTakeRows split frags addrs = .ok rows ∧ rows.length = addrs.length ∧
      ∀ (k : Nat) (a : Nat) (f : Frag α), addrs[k]? = some a → f ∈ frags → f.id = a / U32 →
        rows[k]? = some (f.file (a % U32)) := by
  refine ⟨_, C31_take_addresses split hsp frags hd addrs
    (fun a ha => by obtain ⟨f, hf, h1, h2, _⟩ := hp a ha; exact ⟨f, hf, h1, h2⟩), ?_⟩
  have hval : ∀ a ∈ addrs, ∃ f ∈ frags, f.id = a / U32 ∧ rowAt? frags a = some (f.file (a % U32)) := by
    intro a ha
    obtain ⟨f, hf, h1, h2, h3⟩ := hp a ha
    exact ⟨f, hf, h1, by rw [rowAt?_of hd.distinct hf h1 h2, if_pos h3]⟩
  clear hp
  induction addrs with
  | nil => exact ⟨rfl, by intro k a f h; cases h⟩
  | cons a l ih =>
    obtain ⟨f, hf, h1, h2⟩ := hval a List.mem_cons_self
    obtain ⟨i1, i2⟩ := ih (fun x hx => hval x (List.mem_cons_of_mem _ hx))
    rw [List.filterMap_cons, h2]
    simp only
    refine ⟨by simp [i1], ?_⟩
    intro k b g hk hg hgid
    cases k with
    | zero =>
      simp only [List.getElem?_cons_zero, Option.some.injEq] at hk ⊢
      subst hk
      have e1 := find_frag hd.distinct hf h1
      have e2 := find_frag hd.distinct hg hgid
      rw [e1] at e2; cases e2; rfl
    | succ k =>
      simp only [List.getElem?_cons_succ] at hk ⊢
      exact i2 k b g hk hg hgid

/-- Two fragments; rows 0 and 3 of the first and none of the second are deleted. -/
def sample : List (Frag Nat) :=
  [Read.plainFrag, { id := 7, rows := 3, dv := none, seq := none, file := fun o => 70 + o }]

theorem sample_ok : DatasetOK sample := by
  refine ⟨?_, by decide, by decide⟩
  intro f hf
  simp only [sample, List.mem_cons, List.not_mem_nil, or_false] at hf
  rcases hf with rfl | rfl
  · exact Read.plainFrag_ok
  · exact ⟨by decide, by simp, by simp⟩

def one {β : Type} (l : List β) : List (List β) := [l]
theorem one_splits {β : Type} : Splits (@one β) := by intro l; simp [one]

def dataOf {β : Type} (r : Except Fault (List β)) : Option (List β) := match r with | .ok l => some l | .error _ => none

example : dataOf (doTakeRows one sample [7 * U32 + 2, 2 * U32 + 1, 2 * U32 + 3, 7 * U32 + 2]) = some [72, 51, 72] := by
  decide +kernel
example : dataOf (doTakeRows one sample [2 * U32 + 1, 2 * U32 + 2, 2 * U32 + 3, 2 * U32 + 4]) = some [51, 52, 54] := by
  decide +kernel
example : dataOf (doTakeRows one sample [2 * U32 + 1, 2 * U32 + 2, 7 * U32, 7 * U32 + 2]) = some [51, 52, 70, 72] := by
  decide +kernel

/-! ## Addresses that do not exist -/

/-- C31: an offset beyond the rows of its fragment is an error. -/
theorem C31_offset_error (split : List α → List (List α)) (hsp : Splits split) (frags : List (Frag α))
    (hd : DatasetOK frags) (addrs : List Nat) (h64 : ∀ a ∈ addrs, a < U64)
    (hbad : ∃ a ∈ addrs, ∃ f ∈ frags, f.id = a / U32 ∧ f.rows ≤ a % U32) :
    doTakeRows split frags addrs = .error .error := by
  obtain ⟨a, ha, f, hf, hid, hge⟩ := hbad
  have fragRun : ∀ (g : Frag α) (hg : g ∈ frags) (os : List Nat) (wa : Bool),
      (∃ r, takeRowsFrag split g os wa = .ok r) ∨ takeRowsFrag split g os wa = .error .error := by
    intro g hg os wa
    by_cases h : ∃ o ∈ os, g.rows ≤ o
    · exact Or.inr (takeRowsFrag_error split g (hd.ok g hg) os wa h)
    · exact Or.inl ⟨_, takeRowsFrag_ok split hsp g (hd.ok g hg) os wa (by
        intro o ho
        rcases Nat.lt_or_ge o g.rows with h' | h'
        · exact h'
        · exact absurd ⟨o, ho, h'⟩ h)⟩
  cases addrs with
  | nil => cases ha
  | cons first rest =>
    unfold doTakeRows
    simp only
    split
    · rename_i hc
      obtain ⟨c1, c2⟩ := checkLoop_contiguous (first / U32) first true true rest rfl (h64 first List.mem_cons_self) hc
      have hlast := getLast_range' first rest.length (first :: rest) (by simp) c1
      have hlastfrag := c2 _ (List.getLast_mem (l := first :: rest) (by simp))
      have hafrag := c2 a ha
      unfold getFragment
      rw [find_frag hd.distinct hf (by rw [hid, hafrag])]
      simp only
      rw [hlast] at hlastfrag ⊢
      rw [c1, List.mem_range'_1] at ha
      rw [takeRange, readImpl_invalid split f (hd.ok f hf)]
      simp only [validLen, Bool.and_eq_false_iff, decide_eq_false_iff_not]
      right
      omega
    · split
      · obtain ⟨r1, r2, _⟩ := runsFrom_spec (first / U32) [] (first :: rest) (by simp)
        rw [List.nil_append] at r1
        rw [each_error]
        · intro run hrun
          unfold takeRun
          cases hg : getFragment frags run.1 with
          | none => exact Or.inr rfl
          | some g => exact fragRun g (List.mem_of_find?_eq_some hg) _ _
        · rw [← r1, List.mem_flatMap] at ha
          obtain ⟨run, hrun, har⟩ := ha
          refine ⟨run, hrun, ?_⟩
          unfold takeRun getFragment
          rw [find_frag hd.distinct hf (by rw [hid, r2 run hrun a har])]
          simp only
          apply takeRowsFrag_error split f (hd.ok f hf)
          exact ⟨a % U32, List.mem_map_of_mem (f := (· % U32)) har, hge⟩
      · rw [each_error]
        · intro x hx
          exact fragRun x.1 (mem_perFragment.mp hx).1 _ _
        · have hw : a % U32 ∈ ((dedup (sortBy id (first :: rest))).filter (fun a => a / U32 == f.id)).map (· % U32) := by
            apply List.mem_map_of_mem (f := (· % U32))
            rw [List.mem_filter]
            exact ⟨(mem_sorted _ _).mpr ha, by simp [hid]⟩
          refine ⟨(f, ((dedup (sortBy id (first :: rest))).filter (fun a => a / U32 == f.id)).map (· % U32)), ?_, ?_⟩
          · rw [mem_perFragment]
            exact ⟨hf, rfl, List.ne_nil_of_mem hw⟩
          · exact takeRowsFrag_error split f (hd.ok f hf) _ _ ⟨_, hw, hge⟩

example : doTakeRows one sample [7 * U32 + 3, 2 * U32] = .error .error := by rfl

/-- C31, full statement on missing fragments: they are reported. -/
def C31_missing_statement : Prop :=
  ∀ (split : List Nat → List (List Nat)) (frags : List (Frag Nat)) (addrs : List Nat), Splits split → DatasetOK frags →
    (∃ a ∈ addrs, ∀ f ∈ frags, f.id ≠ a / U32) → doTakeRows split frags addrs = .error .error

/-- It fails for a request out of order: rows of missing fragments are left out without notice. -/
theorem C31_missing_violated : ¬ C31_missing_statement := by
  intro h
  have := h one sample [8 * U32, 2 * U32 + 1] one_splits sample_ok ⟨8 * U32, by decide, by decide⟩
  have e : dataOf (doTakeRows one sample [8 * U32, 2 * U32 + 1]) = some [51] := by decide +kernel
  rw [this] at e
  cases e

/-- And if no fragment of such a request exists, the process panics. -/
theorem C31_missing_panic :
    doTakeRows one sample [9 * U32, 8 * U32] = .error .panic := by rfl

/-- C31: what holds of missing fragments.  A strictly increasing request fails; any other request returns
the rows that exist, or panics if there are none. -/
theorem C31_missing_partial (split : List α → List (List α)) (hsp : Splits split) (frags : List (Frag α))
    (hd : DatasetOK frags) (addrs : List Nat) (h64 : ∀ a ∈ addrs, a < U64)
    (hrows : ∀ a ∈ addrs, ∀ f ∈ frags, f.id = a / U32 → a % U32 < f.rows)
    (hmiss : ∃ a ∈ addrs, ∀ f ∈ frags, f.id ≠ a / U32) :
    (addrs.Pairwise (· < ·) → doTakeRows split frags addrs = .error .error) ∧
    (¬ addrs.Pairwise (· < ·) → doTakeRows split frags addrs =
      if ∀ a ∈ addrs, ∀ f ∈ frags, f.id ≠ a / U32 then .error .panic else .ok (addrs.filterMap (rowAt? frags))) := by
  obtain ⟨a, ha, hm⟩ := hmiss
  cases addrs with
  | nil => cases ha
  | cons first rest =>
    have hcont : (checkLoop (first / U32) first true true rest).2 = true → (first :: rest).Pairwise (· < ·) := by
      intro hc
      obtain ⟨c1, _⟩ := checkLoop_contiguous (first / U32) first true true rest rfl (h64 first List.mem_cons_self) hc
      rw [c1]
      exact List.pairwise_lt_range'
    constructor
    · intro hs
      unfold doTakeRows
      simp only
      split
      · rename_i hc
        obtain ⟨_, c2⟩ := checkLoop_contiguous (first / U32) first true true rest rfl (h64 first List.mem_cons_self) hc
        have : getFragment frags (first / U32) = none := by
          unfold getFragment
          rw [List.find?_eq_none]
          intro f hf
          rw [← c2 a ha]
          simpa using hm f hf
        rw [this]
      · rw [if_pos ((checkLoop_sorted _ _ _ _ _).mpr ⟨rfl, hs⟩)]
        obtain ⟨r1, r2, _⟩ := runsFrom_spec (first / U32) [] (first :: rest) (by simp)
        rw [List.nil_append] at r1
        rw [each_error]
        · intro run hrun
          unfold takeRun
          cases hg : getFragment frags run.1 with
          | none => exact Or.inr rfl
          | some g =>
            left
            refine ⟨_, takeRowsFrag_ok split hsp g (hd.ok g (List.mem_of_find?_eq_some hg)) _ _ ?_⟩
            intro o ho
            obtain ⟨b, hb, rfl⟩ := List.mem_map.mp ho
            apply hrows b _ g (List.mem_of_find?_eq_some hg)
            · have := List.find?_some hg
              rw [r2 run hrun b hb]; simpa using this
            · rw [← r1, List.mem_flatMap]; exact ⟨run, hrun, hb⟩
        · rw [← r1, List.mem_flatMap] at ha
          obtain ⟨run, hrun, har⟩ := ha
          refine ⟨run, hrun, ?_⟩
          have : getFragment frags run.1 = none := by
            unfold getFragment
            rw [List.find?_eq_none]
            intro f hf
            rw [← r2 run hrun a har]
            simpa using hm f hf
          unfold takeRun
          rw [this]
    · intro hs
      unfold doTakeRows
      simp only
      rw [if_neg (fun hc => hs (hcont hc)), if_neg (fun hc => hs ((checkLoop_sorted _ _ _ _ _).mp hc).2)]
      obtain ⟨bs, h1, h2, h3⟩ := slow_reorder split hsp frags hd (first :: rest) hrows
      rw [h1]
      cases bs with
      | nil => simp only; rw [if_pos (h2.mp rfl)]
      | cons b bs =>
        simp only
        rw [if_neg (fun hall => by have := h2.mpr hall; cases this), h3]

/-! ## With addresses, and by row id -/

/-- C31: with addresses in the output every requested row is live and comes with its address, or the call
fails. -/
theorem C31_with_addresses (split : List α → List (List α)) (frags : List (Frag α)) (addrs : List Nat)
    (out : List (α × Nat)) (hsp : Splits split) (hd : DatasetOK frags) (hp : ∀ a ∈ addrs, Physical frags a)
    (h : takeWithAddrs split frags addrs = .ok out) :
    out.map (·.2) = addrs ∧ ∀ x ∈ out, rowAt? frags x.2 = some x.1 := by
  unfold takeWithAddrs at h
  rw [C31_take_addresses split hsp frags hd addrs hp] at h
  simp only at h
  split at h
  · cases h
  · rename_i hlen
    simp only [Classical.not_not] at hlen
    cases h
    clear hp
    have hall : ∀ a ∈ addrs, (rowAt? frags a).isSome := by
      induction addrs with
      | nil => intro a ha; cases ha
      | cons b l ih =>
        rw [List.filterMap_cons] at hlen
        have hle : (l.filterMap (rowAt? frags)).length ≤ l.length := List.length_filterMap_le _ _
        cases hb : rowAt? frags b with
        | none => rw [hb] at hlen; simp at hlen; omega
        | some v =>
          rw [hb] at hlen
          simp only [List.length_cons, Nat.add_right_cancel_iff] at hlen
          intro a ha
          rcases List.mem_cons.mp ha with rfl | ha
          · rw [hb]; rfl
          · exact ih hlen a ha
    refine ⟨?_, ?_⟩
    · rw [List.map_snd_zip (by omega)]
    · clear hlen
      induction addrs with
      | nil => intro x hx; simp at hx
      | cons b l ih =>
        obtain ⟨v, hv⟩ := Option.isSome_iff_exists.mp (hall b List.mem_cons_self)
        rw [List.filterMap_cons, hv]
        simp only [List.zip_cons_cons]
        intro x hx
        rcases List.mem_cons.mp hx with rfl | hx
        · exact hv
        · exact ih (fun a ha => hall a (List.mem_cons_of_mem _ ha)) x hx

/-- The row ids of the fragments of a dataset with stable row ids. -/
def sequences (frags : List (Frag α)) : List (Nat × RowIds.Seq) :=
  frags.filterMap (fun f => f.seq.map (fun q => (f.id, q)))

/-- C31: with stable row ids, and an index that could be built, taking row ids returns for each id the
value of the live row that has the id, in the order of the request.  Ids that no live row has are left
out. -/
theorem C31_take_ids (split : List α → List (List α)) (hsp : Splits split) (frags : List (Frag α))
    (hd : DatasetOK frags) (hseq : ∀ f ∈ frags, ∃ q, f.seq = some q ∧ ∀ sg ∈ q, sg.Good)
    (ix : List RowIds.Index.Piece) (hix : RowIds.Index.new (sequences frags) = .ok ix) (ids : List Nat) :
    ∃ value : Nat → Option α,
      takeIds split (some (fun v => (RowIds.Index.get ix v).join)) frags ids = .ok (ids.filterMap value) ∧
      (∀ f ∈ frags, ∀ q, f.seq = some q → ∀ off v, (RowIds.Seq.iter q)[off]? = some v →
        value v = if live f.dv off = true then some (f.file off) else none) ∧
      (∀ v, (∀ f ∈ frags, ∀ q, f.seq = some q → v ∉ RowIds.Seq.iter q) → value v = none) := by
  have hmemseq : ∀ x ∈ sequences frags, ∃ f ∈ frags, f.id = x.1 ∧ f.seq = some x.2 := by
    intro x hx
    unfold sequences at hx
    rw [List.mem_filterMap] at hx
    obtain ⟨f, hf, h⟩ := hx
    obtain ⟨q, hq, _⟩ := hseq f hf
    rw [hq] at h
    cases h
    exact ⟨f, hf, rfl, hq⟩
  have hmem2 : ∀ f ∈ frags, ∀ q, f.seq = some q → (f.id, q) ∈ sequences frags := by
    intro f hf q hq
    unfold sequences
    rw [List.mem_filterMap]
    exact ⟨f, hf, by rw [hq]; rfl⟩
  have hlook := RowIds.Index.C13_lookup_partial (sequences frags)
    (by
      intro fq hfq sg hsg
      obtain ⟨f, hf, _, hq⟩ := hmemseq fq hfq
      obtain ⟨q, hq', hg⟩ := hseq f hf
      rw [hq] at hq'; cases hq'
      exact hg sg hsg)
    (by
      intro fq hfq
      obtain ⟨f, hf, hid, hq⟩ := hmemseq fq hfq
      refine ⟨by rw [← hid]; exact hd.ids f hf, ?_⟩
      rw [((hd.ok f hf).seq _ hq).2]
      exact Nat.le_of_lt (hd.ok f hf).rows)
  rcases hlook with h | ⟨ix', h, hget⟩
  · rw [hix] at h; cases h
  rw [hix] at h
  cases h
  -- addresses of ids
  have haddr : ∀ v a, (RowIds.Index.get ix v).join = some a →
      ∃ f ∈ frags, ∃ q, f.seq = some q ∧ ∃ i, (RowIds.Seq.iter q)[i]? = some v ∧ a = f.id * U32 + i ∧ i < f.rows := by
    intro v a hv
    have hv' : RowIds.Index.get ix v = some (some a) := by
      cases hg : RowIds.Index.get ix v with
      | none => rw [hg] at hv; cases hv
      | some o => rw [hg] at hv; simp at hv; rw [hv]
    obtain ⟨fid, i, ⟨q, hq, hi⟩, e⟩ := ((hget v).1 a).mp hv'
    obtain ⟨f, hf, hid, hfq⟩ := hmemseq _ hq
    refine ⟨f, hf, q, hfq, i, hi, by rw [e, hid], ?_⟩
    rw [← ((hd.ok f hf).seq q hfq).2]
    exact (List.getElem?_eq_some_iff.mp hi).1
  refine ⟨fun v => ((RowIds.Index.get ix v).join).bind (rowAt? frags), ?_, ?_, ?_⟩
  · unfold takeIds rowAddrs
    simp only
    rw [C31_take_addresses split hsp frags hd]
    · rw [List.filterMap_filterMap]
    · intro a ha
      rw [List.mem_filterMap] at ha
      obtain ⟨v, _, hv⟩ := ha
      obtain ⟨f, hf, q, hq, i, _, e, hlt⟩ := haddr v a hv
      have := (hd.ok f hf).rows
      obtain ⟨e1, e2⟩ := mod_div_addr (f := f.id) (o := i) (by omega)
      exact ⟨f, hf, by rw [e, e1], by rw [e, e2]; exact hlt⟩
  · intro f hf q hq off v hv
    have hg : RowIds.Index.get ix v = some (some (f.id * U32 + off)) :=
      ((hget v).1 _).mpr ⟨f.id, off, ⟨q, hmem2 f hf q hq, hv⟩, rfl⟩
    have hlt : off < f.rows := by
      rw [← ((hd.ok f hf).seq q hq).2]
      exact (List.getElem?_eq_some_iff.mp hv).1
    have := (hd.ok f hf).rows
    obtain ⟨e1, e2⟩ := mod_div_addr (f := f.id) (o := off) (by omega)
    simp only [hg]
    show rowAt? frags (f.id * U32 + off) = _
    rw [rowAt?_of hd.distinct hf e1.symm (by rw [e2]; exact hlt), e2]
  · intro v hv
    cases hj : (RowIds.Index.get ix v).join with
    | none => simp only [hj]; rfl
    | some a =>
      obtain ⟨f, hf, q, hq, i, hi, _⟩ := haddr v a hj
      exact absurd (List.mem_of_getElem? hi) (hv f hf q hq)

/-- Two fragments with stable row ids; row 1 of the first (row id 11) is deleted. -/
def stable : List (Frag Nat) :=
  [{ id := 0, rows := 3, dv := some (.set [1]), seq := some [.range 10 13], file := fun o => 100 + o },
   { id := 4, rows := 2, dv := none, seq := some [.array (.u64 [31, 30])], file := fun o => 200 + o }]

/-- Ids 30, 11 (deleted), 12, 99 (unknown) and 31. -/
example : ∃ ix, RowIds.Index.new (sequences stable) = .ok ix ∧
    dataOf (takeIds one (some (fun v => (RowIds.Index.get ix v).join)) stable [30, 11, 12, 99, 31]) =
      some [201, 102, 200] :=
  ⟨_, rfl, by decide +kernel⟩

end Verif.Take
