import Verif.RowSet.Lemmas2

/-!
# Properties C01–C04: row addresses, row sets, row filters
-/
namespace Verif.RowSet
open Verif

/-! ## C01 Row addresses are faithful -/

/-- C01: an address gives back the fragment id and offset it was built from. -/
theorem C01_parts_roundtrip (f o : Nat) (hf : f < 2 ^ 32) (ho : o < 2 ^ 32) :
    fragmentId (newFromParts f o) = f ∧ rowOffset (newFromParts f o) = o ∧
      newFromParts f o < 2 ^ 64 := by
  have hf' : f < U32 := hf
  have ho' : o < U32 := ho
  have e := newFromParts_eq (f := f) ho'
  refine ⟨?_, ?_, ?_⟩
  · rw [e, fragmentId_eq (by omega)]; omega
  · rw [e]; unfold rowOffset; omega
  · rw [e]; omega

/-- C01: every 64-bit address is rebuilt from its parts. -/
theorem C01_addr_roundtrip (a : Nat) (ha : a < 2 ^ 64) :
    newFromParts (fragmentId a) (rowOffset a) = a := by
  rw [newFromParts_eq (rowOffset_lt a)]
  exact (addr_split (by simpa using ha)).symm

/-- C01: address order is fragment first, offset second. -/
theorem C01_order (f o f' o' : Nat) (ho : o < 2 ^ 32) (ho' : o' < 2 ^ 32) :
    newFromParts f o < newFromParts f' o' ↔ f < f' ∨ (f = f' ∧ o < o') := by
  have h1 : o < U32 := ho
  have h2 : o' < U32 := ho'
  rw [newFromParts_eq h1, newFromParts_eq h2]
  omega

/-- C01: the address range of a fragment contains exactly the fragment's addresses; it is
available for every fragment id but the reserved last one. -/
theorem C01_address_range (f : Nat) (hf : f < 2 ^ 32) :
    (f ≠ 2 ^ 32 - 1 → ∃ lo hi, addressRange f = some (lo, hi) ∧
      ∀ a, a < 2 ^ 64 → ((lo ≤ a ∧ a < hi) ↔ fragmentId a = f)) ∧
    (f = 2 ^ 32 - 1 → addressRange f = none) := by
  have hf' : f < U32 := hf
  constructor
  · intro hne
    have h1 : f + 1 < U32 := by omega
    refine ⟨firstRow f, firstRow (f + 1), by simp [addressRange, h1], ?_⟩
    intro a ha
    rw [fragmentId_eq (by omega)]
    unfold firstRow
    rw [newFromParts_eq (by omega), newFromParts_eq (by omega)]
    omega
  · intro h; subst h; rfl

example : fragmentId (newFromParts 7 9) = 7 ∧ rowOffset (newFromParts 7 9) = 9 := by decide

/-! ## C02 Row sets behave as sets -/

/-- The mutating operations of a row set. -/
inductive Op where
  | insert (v : Nat)
  | insertRange (lo hi : Bound)
  | insertFragment (f : Nat)
  | insertBitmap (f : Nat) (s : Bm)
  | remove (v : Nat)
  | union (rhs : TreeMap)
  | inter (rhs : TreeMap)
  | diff (rhs : TreeMap)
  | retain (frags : List Nat)
  | extendIds (ids : List Nat)
  | extendMaps (ms : List TreeMap)

/-- Run one operation of the model. -/
def step (m : TreeMap) : Op → Option TreeMap
  | .insert v => some (RowSet.insert m v)
  | .insertRange lo hi => RowSet.insertRange m lo hi
  | .insertFragment f => some (RowSet.insertFragment m f)
  | .insertBitmap f s => some (RowSet.insertBitmap m f s)
  | .remove v => some (RowSet.remove m v)
  | .union r => some (RowSet.or m r)
  | .inter r => some (RowSet.and m r)
  | .diff r => some (RowSet.sub m r)
  | .retain fs => some (RowSet.retainFragments m fs)
  | .extendIds ids => some (RowSet.extendIds m ids)
  | .extendMaps ms => some (RowSet.extendMaps m ms)

def run (m : TreeMap) : List Op → Option TreeMap
  | [] => some m
  | op :: ops => (step m op).bind (fun m' => run m' ops)

/-- Lower bound of a Rust range. -/
def above : Bound → Nat → Prop
  | .incl s, w => s ≤ w
  | .excl s, w => s < w
  | .unb, _ => True

/-- Upper bound of a Rust range. -/
def below : Bound → Nat → Prop
  | .incl e, w => w ≤ e
  | .excl e, w => w < e
  | .unb, _ => True

/-- The specification: what each operation means for a set of row addresses. -/
def specStep (S : Nat → Prop) : Op → Nat → Prop
  | .insert v, w => S w ∨ w = v
  | .insertRange lo hi, w => S w ∨ (above lo w ∧ below hi w)
  | .insertFragment f, w => S w ∨ w / 2 ^ 32 = f
  | .insertBitmap f s, w => if w / 2 ^ 32 = f then w % 2 ^ 32 ∈ s else S w
  | .remove v, w => S w ∧ w ≠ v
  | .union r, w => S w ∨ contains r w = true
  | .inter r, w => S w ∧ contains r w = true
  | .diff r, w => S w ∧ ¬ contains r w = true
  | .retain fs, w => S w ∧ w / 2 ^ 32 ∈ fs
  | .extendIds ids, w => S w ∨ w ∈ ids
  | .extendMaps ms, w => S w ∨ ∃ t ∈ ms, contains t w = true

def specRun (S : Nat → Prop) : List Op → Nat → Prop
  | [] => S
  | op :: ops => specRun (specStep S op) ops

def boundOk : Bound → Prop
  | .incl x | .excl x => x < 2 ^ 64
  | .unb => True

/-- Arguments are machine integers and right-hand sides are ordered maps. -/
def Op.valid : Op → Prop
  | .insert v | .remove v => v < 2 ^ 64
  | .insertRange lo hi => boundOk lo ∧ boundOk hi
  | .insertFragment f | .insertBitmap f _ => f < 2 ^ 32
  | .union r | .inter r | .diff r => SMap.Sorted r
  | .retain _ => True
  | .extendIds ids => ∀ v ∈ ids, v < 2 ^ 64
  | .extendMaps ms => ∀ t ∈ ms, SMap.Sorted t

/-- The full claim C02: after any operations, membership is that of the mathematical set. -/
def C02_statement : Prop :=
  ∀ (ops : List Op) (m : TreeMap), (∀ op ∈ ops, op.valid) → run [] ops = some m →
    ∀ w, w < 2 ^ 64 → (contains m w = true ↔ specRun (fun _ => False) ops w)

/-- C02 fails for the code: the union of a partially selected fragment with the whole
fragment keeps only the part (mask.rs:596-600). -/
theorem C02_violated : ¬ C02_statement := by
  intro h
  have := h [.insert 1, .union [(0, .full)]] [(0, .part [1])]
    (by
      intro op hop
      simp only [List.mem_cons, List.not_mem_nil, or_false] at hop
      rcases hop with rfl | rfl
      · show (1 : Nat) < 2 ^ 64; decide
      · show SMap.Sorted _; exact List.pairwise_singleton _ _)
    (by decide) 0 (by decide)
  have hc : contains [(0, .part [1])] 0 = false := by decide
  rw [hc] at this
  have hs : specRun (fun _ => False) [.insert 1, .union [(0, .full)]] 0 := by
    show (False ∨ (0 : Nat) = 1) ∨ contains [(0, .full)] 0 = true
    right; decide
  exact absurd (this.2 hs) (by simp)

/-- C02 also fails for the empty range `..0`, which inserts row 0 (mask.rs:413-416). -/
theorem C02_empty_range_violated :
    ∃ m, run [] [.insertRange .unb (.excl 0)] = some m ∧ contains m 0 = true ∧
      ¬ specRun (fun _ => False) [.insertRange .unb (.excl 0)] 0 := by
  refine ⟨[(0, .part [0])], by decide, by decide, ?_⟩
  show ¬ (False ∨ (True ∧ (0 : Nat) < 0))
  simp

/-- The exact guard: no union with a whole fragment, and no range excluded below 0. -/
def Op.safe : Op → Prop
  | .union r => ∀ f, SMap.get f r ≠ some .full
  | .insertRange _ hi => hi ≠ .excl 0
  | _ => True

theorem step_sorted (m m' : TreeMap) (op : Op) (hs : m.Sorted) (h : step m op = some m') :
    m'.Sorted := by
  cases op <;> simp only [step, Option.some.injEq] at h <;> try subst h
  · exact sorted_insert _ _ hs
  · unfold insertRange at h
    simp only at h
    split at h
    · simp at h
    · simp only [Option.some.injEq] at h; subst h; exact sorted_insertRangeLoop _ _ _ _ _ _ hs
  · exact SMap.sorted_insert _ _ _ hs
  · exact SMap.sorted_insert _ _ _ hs
  · exact sorted_remove _ _ hs
  · exact sorted_or _ _ hs
  · exact sorted_and _ _ hs
  · exact sorted_sub _ _ hs
  · exact SMap.sorted_retain _ _ hs
  · exact sorted_extendIds _ _ hs
  · exact sorted_extendMaps _ _ hs

theorem low_split {s w : Nat} (hs : s < U32 * U32) (hw : w < U32 * U32) (e : Nat)
    (he : e < U32 * U32) :
    (fragmentId s ≤ fragmentId w ∧ fragmentId w ≤ fragmentId e ∧
      (fragmentId w = fragmentId s → rowOffset s ≤ rowOffset w) ∧
      (fragmentId w = fragmentId e → rowOffset w ≤ rowOffset e)) ↔ (s ≤ w ∧ w ≤ e) := by
  rw [fragmentId_eq hs, fragmentId_eq hw, fragmentId_eq he]
  unfold rowOffset
  omega

/-- One operation, for one row address. -/
theorem step_spec (m m' : TreeMap) (op : Op) (hm : m.Sorted) (hv : op.valid) (hsafe : op.safe)
    (h : step m op = some m') (S : Nat → Prop) (hS : ∀ w, w < 2 ^ 64 → (contains m w = true ↔ S w))
    (w : Nat) (hw : w < 2 ^ 64) : contains m' w = true ↔ specStep S op w := by
  have hw' : w < U32 * U32 := by simpa using hw
  have hSw := hS w hw
  rw [contains_eq] at hSw ⊢
  have hfw : fragmentId w = w / 2 ^ 32 := fragmentId_eq hw'
  cases op <;> simp only [step, Option.some.injEq] at h <;> simp only [specStep]
  · rename_i v
    subst h
    have hv' : v < U32 * U32 := by simpa [Op.valid] using hv
    rw [memAt_insert, hSw]
    refine or_congr Iff.rfl ⟨fun h => addr_ext hw' hv' h.1 h.2, fun h => by subst h; exact ⟨rfl, rfl⟩⟩
  · rename_i lo hi
    have hlo : boundOk lo := hv.1
    have hhi : boundOk hi := hv.2
    have hsafe' : hi ≠ .excl 0 := hsafe
    unfold insertRange at h
    simp only at h
    split at h
    · simp at h
    · rename_i hno
      simp only [Option.some.injEq] at h; subst h
      have hl : lowBound lo < U32 * U32 := by
        cases lo <;> simp only [lowBound, boundOk] at * <;> omega
      have hh : highBound hi < U32 * U32 := by
        cases hi <;> simp only [highBound, boundOk] at * <;> omega
      rw [memAt_insertRangeLoop _ _ _ _ _ _ _ _ rfl (rowOffset_lt _), hSw, low_split hl hw' _ hh]
      refine or_congr Iff.rfl ?_
      have h1 : (lowBound lo ≤ w ∧ w ≤ highBound hi) ↔ (above lo w ∧ w ≤ highBound hi) := by
        cases lo with
        | incl s => exact Iff.rfl
        | unb => simp [lowBound, above]
        | excl s =>
          simp only [lowBound, above]
          constructor
          · rintro ⟨ha, hb⟩
            refine ⟨?_, hb⟩
            have hfs : fragmentId (min (s + 1) (U32 * U32 - 1)) ≤ fragmentId (highBound hi) := by
              have : min (s + 1) (U32 * U32 - 1) < U32 * U32 := by omega
              rw [fragmentId_eq hh, fragmentId_eq this]
              apply Nat.div_le_div_right; omega
            simp only [lowBound] at hno
            have hne : fragmentId (highBound hi) ≠ U32 - 1 := fun e => hno ⟨hfs, e⟩
            rw [fragmentId_eq hh] at hne
            omega
          · rintro ⟨ha, hb⟩; exact ⟨by omega, hb⟩
      have h2 : w ≤ highBound hi ↔ below hi w := by
        cases hi with
        | incl s => exact Iff.rfl
        | unb => simp only [highBound, below, iff_true]; omega
        | excl s =>
          simp only [highBound, below]
          have : s ≠ 0 := fun e => hsafe' (by rw [e])
          omega
      rw [h1, h2]
  · subst h
    rw [memAt_insertFragment, hSw, hfw]
  · rename_i f s
    subst h
    rw [memAt_insertBitmap, hSw, hfw]
    exact Iff.rfl
  · rename_i v
    subst h
    have hv' : v < U32 * U32 := by simpa [Op.valid] using hv
    rw [memAt_remove _ _ _ _ (rowOffset_lt _), hSw]
    refine and_congr Iff.rfl (not_congr ⟨fun h => addr_ext hw' hv' h.1 h.2, fun h => by subst h; exact ⟨rfl, rfl⟩⟩)
  · rename_i r
    subst h
    have hr : SMap.Sorted r := hv
    have hs : ∀ f, SMap.get f r ≠ some .full := hsafe
    rw [memAt_or _ _ hr _ _ (fun _ _ => hs _), hSw, contains_eq]
  · subst h
    rw [memAt_and _ _ hm, hSw, contains_eq]
  · rename_i r
    subst h
    have hr : SMap.Sorted r := hv
    rw [memAt_sub _ _ hr _ _ (rowOffset_lt _), hSw, contains_eq]
  · subst h
    rw [memAt_retainFragments _ hm, hSw, hfw]
  · rename_i ids
    subst h
    have hids : ∀ v ∈ ids, v < 2 ^ 64 := hv
    rw [memAt_extendIds, hSw]
    refine or_congr Iff.rfl ?_
    constructor
    · rintro ⟨v, hv, h1, h2⟩
      have : w = v := addr_ext hw' (by simpa using hids v hv) h1 h2
      exact this ▸ hv
    · intro h; exact ⟨w, h, rfl, rfl⟩
  · rename_i ms
    subst h
    have hms : ∀ t ∈ ms, SMap.Sorted t := hv
    rw [memAt_extendMaps _ _ hms, hSw]
    simp only [contains_eq]

theorem run_spec (ops : List Op) (m m' : TreeMap) (hm : m.Sorted)
    (hv : ∀ op ∈ ops, op.valid) (hsafe : ∀ op ∈ ops, op.safe) (h : run m ops = some m')
    (S : Nat → Prop) (hS : ∀ w, w < 2 ^ 64 → (contains m w = true ↔ S w)) (w : Nat) (hw : w < 2 ^ 64) :
    contains m' w = true ↔ specRun S ops w := by
  induction ops generalizing m S with
  | nil => simp only [run, Option.some.injEq] at h; subst h; exact hS w hw
  | cons op ops ih =>
    simp only [run] at h
    cases hst : step m op with
    | none => simp [hst] at h
    | some m1 =>
      simp only [hst, Option.bind_some] at h
      refine ih m1 (step_sorted _ _ _ hm hst) (fun o ho => hv o (List.mem_cons_of_mem _ ho))
        (fun o ho => hsafe o (List.mem_cons_of_mem _ ho)) h _ ?_
      exact fun w hw => step_spec m m1 op hm (hv op List.mem_cons_self) (hsafe op List.mem_cons_self) hst S hS w hw

/-- C02 (partial): after any sequence of operations whose unions do not involve whole fragments
on the right (and whose ranges are not `..0`), membership is that of the mathematical set.
Missing from C02: unions with whole-fragment entries, which the code gets wrong. -/
theorem C02_set_semantics_partial (ops : List Op) (m : TreeMap)
    (hv : ∀ op ∈ ops, op.valid) (hsafe : ∀ op ∈ ops, op.safe) (h : run [] ops = some m)
    (w : Nat) (hw : w < 2 ^ 64) : contains m w = true ↔ specRun (fun _ => False) ops w :=
  run_spec ops [] m SMap.sorted_nil hv hsafe h _ (by intro w _; simp [contains, SMap.get]) w hw

/-- C02: operations never fail unless a range reaches into the reserved last fragment. -/
theorem C02_run_total (ops : List Op) (m : TreeMap)
    (h : ∀ lo hi, Op.insertRange lo hi ∈ ops → highBound hi < (2 ^ 32 - 1) * 2 ^ 32) :
    ∃ m', run m ops = some m' := by
  induction ops generalizing m with
  | nil => exact ⟨m, rfl⟩
  | cons op ops ih =>
    have : ∃ m1, step m op = some m1 := by
      cases op <;> simp only [step, Option.some.injEq, exists_eq']
      rename_i lo hi
      have hb := h lo hi List.mem_cons_self
      unfold insertRange
      simp only
      rw [if_neg]
      · exact ⟨_, rfl⟩
      · rintro ⟨_, he⟩
        rw [fragmentId_eq (by omega)] at he
        omega
    obtain ⟨m1, h1⟩ := this
    obtain ⟨m', h2⟩ := ih m1 (fun lo hi hm => h lo hi (List.mem_cons_of_mem _ hm))
    exact ⟨m', by simp [run, h1, h2]⟩

/-- C02: a union is wrong at a row address exactly when the fragment is partially selected on the
left without that row, and wholly selected on the right. -/
theorem C02_union_exact (m rhs : TreeMap) (hr : rhs.Sorted) (w : Nat) :
    (contains (or m rhs) w = (contains m w || contains rhs w)) ↔
      ¬ ((∃ l, SMap.get (fragmentId w) m = some (.part l) ∧ rowOffset w ∉ l) ∧
          SMap.get (fragmentId w) rhs = some .full) := by
  rw [contains_eq, contains_eq, contains_eq]
  constructor
  · rintro h ⟨⟨l, hl, hnot⟩, hfull⟩
    rw [memAt_or_lost m rhs hr _ _ l hl hfull] at h
    unfold memAt at h
    rw [hl, hfull] at h
    simp [selHas, Bm.has] at h
    exact hnot h
  · intro h
    by_cases hp : ∃ l, SMap.get (fragmentId w) m = some (.part l) ∧ SMap.get (fragmentId w) rhs = some .full
    · obtain ⟨l, hl, hf⟩ := hp
      rw [memAt_or_lost m rhs hr _ _ l hl hf]
      have : rowOffset w ∈ l := by
        false_or_by_contra
        rename_i hn
        exact h ⟨⟨l, hl, hn⟩, hf⟩
      simp [memAt, hl, hf, selHas, this]
    · have := memAt_or m rhs hr (fragmentId w) (rowOffset w)
        (fun l hl hf => hp ⟨l, hl, hf⟩)
      rw [Bool.eq_iff_iff, this]; simp

/-- C02: `union_all` is the union, whole fragments included. -/
theorem C02_union_all (maps : List TreeMap) (hs : ∀ t ∈ maps, SMap.Sorted t) (w : Nat) :
    contains (unionAll maps) w = true ↔ ∃ t ∈ maps, contains t w = true := by
  simp only [contains_eq]
  exact memAt_unionAll maps hs _ _

theorem lookup_split (m : TreeMap) (hm : m.Sorted) (w : Nat) :
    contains m w = true ↔
      ∃ e ∈ m, e.1 = fragmentId w ∧ selHas (some e.2) (rowOffset w) = true := by
  rw [contains_eq]
  unfold memAt
  constructor
  · intro h
    cases hg : SMap.get (fragmentId w) m with
    | none => rw [hg] at h; simp [selHas] at h
    | some s => exact ⟨_, SMap.get_some_mem hg, rfl, by rw [hg] at h; exact h⟩
  · rintro ⟨⟨k, s⟩, he, hk, hs⟩
    simp only at hk hs
    subst hk
    rw [SMap.get_eq_some_of_mem hm he]; exact hs

/-- C02: listing the row ids gives exactly the members (when no whole fragment is selected,
otherwise nothing is listed). -/
theorem C02_row_ids (m : TreeMap) (hm : m.Sorted)
    (hb : ∀ e ∈ m, e.1 < 2 ^ 32 ∧ ∀ s, e.2 = .part s → ∀ o ∈ s, o < 2 ^ 32) :
    (∀ ids, rowIds m = some ids → ∀ w, w < 2 ^ 64 → (w ∈ ids ↔ contains m w = true)) ∧
    (rowIds m = none ↔ ∃ e ∈ m, e.2 = .full) := by
  have hlen : ∀ m : TreeMap, (m.filterMap (fun e => match e.2 with
      | .full => none | .part s => some (s.map (newFromParts e.1)))).length ≠ m.length ↔
      ∃ e ∈ m, e.2 = .full := by
    intro m
    have hle : ∀ m : TreeMap, (m.filterMap (fun e => match e.2 with
      | .full => none | .part s => some (s.map (newFromParts e.1)))).length ≤ m.length :=
      fun m => List.length_filterMap_le _ m
    induction m with
    | nil => simp
    | cons e m ih =>
      obtain ⟨k, s⟩ := e
      cases s with
      | full =>
        simp only [List.filterMap_cons, List.length_cons, List.mem_cons, exists_eq_or_imp, true_or, iff_true]
        have := hle m
        omega
      | part s =>
        simp only [List.filterMap_cons, List.length_cons, List.mem_cons, exists_eq_or_imp]
        simp only [ne_eq, Nat.add_right_cancel_iff, reduceCtorEq, false_or]
        exact ih
  constructor
  · intro ids h w hw
    have hw' : w < U32 * U32 := by simpa using hw
    unfold rowIds at h
    simp only at h
    split at h
    · simp at h
    · rename_i hl
      simp only [Option.some.injEq] at h
      subst h
      have hnf : ∀ e ∈ m, e.2 ≠ .full := by
        intro e he hf
        exact hl ((hlen m).2 ⟨e, he, hf⟩)
      rw [lookup_split m hm]
      simp only [List.mem_flatten, List.mem_filterMap]
      constructor
      · rintro ⟨l, ⟨⟨k, s⟩, he, hs⟩, hwl⟩
        cases s with
        | full => exact absurd rfl (hnf _ he)
        | part s =>
          simp only [Option.some.injEq] at hs
          subst hs
          obtain ⟨o, ho, rfl⟩ := List.mem_map.1 hwl
          have hbo := (hb _ he).2 s rfl o ho
          have hbk := (hb _ he).1
          obtain ⟨h1, h2, _⟩ := C01_parts_roundtrip k o hbk hbo
          exact ⟨_, he, h1.symm, by simp [selHas, h2, ho]⟩
      · rintro ⟨⟨k, s⟩, he, hk, hs⟩
        cases s with
        | full => exact absurd rfl (hnf _ he)
        | part s =>
          simp only at hk hs
          refine ⟨_, ⟨_, he, rfl⟩, ?_⟩
          refine List.mem_map.2 ⟨rowOffset w, by simpa [selHas] using hs, ?_⟩
          subst hk
          exact C01_addr_roundtrip w hw
  · unfold rowIds
    simp only
    rw [← hlen m]
    split
    · rename_i h; exact ⟨fun _ => h, fun _ => rfl⟩
    · rename_i h; exact ⟨fun e => (by cases e), fun e => absurd e h⟩

theorem len_none (m : TreeMap) : m.foldl lenStep none = none := by
  induction m with
  | nil => rfl
  | cons e m ih => rw [List.foldl_cons]; exact ih

theorem len_fold (m : TreeMap) (a : Nat) : m.foldl lenStep (some a) = (m.foldl lenStep (some 0)).map (· + a) := by
  induction m generalizing a with
  | nil => simp
  | cons e m ih =>
    obtain ⟨k, s⟩ := e
    cases s with
    | full =>
      have h : ∀ a, lenStep (some a) (k, .full) = none := fun _ => rfl
      rw [List.foldl_cons, List.foldl_cons, h, h, len_none]; rfl
    | part s =>
      have h : ∀ a, lenStep (some a) (k, .part s) = some (s.length + a) := fun _ => rfl
      rw [List.foldl_cons, List.foldl_cons, h, h, ih (s.length + a), ih (s.length + 0), Option.map_map]
      congr 1
      funext x; simp only [Function.comp_apply]; omega

theorem rowIds_cons_part (k : Nat) (s : Bm) (m : TreeMap) :
    rowIds ((k, .part s) :: m) = (rowIds m).map (s.map (newFromParts k) ++ ·) := by
  unfold rowIds
  simp only [List.filterMap_cons, List.length_cons, ne_eq, Nat.add_right_cancel_iff, List.flatten_cons]
  split <;> rfl

/-- C02: `len` is the number of members (nothing when a whole fragment is selected), and the listed row
ids are increasing, so no member is listed twice. -/
theorem C02_len (m : TreeMap) (hm : m.Sorted)
    (hb : ∀ e ∈ m, e.1 < 2 ^ 32 ∧ ∀ s, e.2 = .part s → s.Sorted ∧ ∀ o ∈ s, o < 2 ^ 32) :
    len m = (rowIds m).map List.length ∧ ∀ ids, rowIds m = some ids → ids.Pairwise (· < ·) := by
  constructor
  · clear hm hb
    unfold len
    induction m with
    | nil => rfl
    | cons e m ih =>
      obtain ⟨k, s⟩ := e
      cases s with
      | full =>
        have h1 : rowIds ((k, .full) :: m) = none := by
          unfold rowIds
          exact if_pos (Nat.ne_of_lt (Nat.lt_succ_of_le (List.length_filterMap_le _ m)))
        rw [h1]
        exact len_none m
      | part s =>
        rw [rowIds_cons_part, List.foldl_cons, show lenStep (some 0) (k, .part s) = some (s.length + 0) from rfl]
        rw [len_fold, ih, Option.map_map, Option.map_map]
        congr 1
        funext x; simp only [Function.comp_apply, List.length_append, List.length_map]; omega
  · induction m with
    | nil => intro ids h; cases h; exact List.Pairwise.nil
    | cons e m ih =>
      obtain ⟨k, s⟩ := e
      intro ids h
      cases s with
      | full =>
        have := (C02_row_ids ((k, .full) :: m) hm (fun e he => ⟨(hb e he).1, fun s hs => ((hb e he).2 s hs).2⟩)).2.2
          ⟨_, List.mem_cons_self, rfl⟩
        rw [this] at h; cases h
      | part s =>
        rw [rowIds_cons_part] at h
        cases hr : rowIds m with
        | none => rw [hr] at h; cases h
        | some r =>
          rw [hr] at h
          simp only [Option.map_some, Option.some.injEq] at h
          subst h
          have hm' := List.pairwise_cons.1 hm
          have hb' : ∀ e ∈ m, e.1 < 2 ^ 32 ∧ ∀ s, e.2 = .part s → ∀ o ∈ s, o < 2 ^ 32 := fun e he =>
            ⟨(hb e (List.mem_cons_of_mem _ he)).1, fun s hs => ((hb e (List.mem_cons_of_mem _ he)).2 s hs).2⟩
          obtain ⟨hk, hs⟩ := hb _ List.mem_cons_self
          obtain ⟨hss, hso⟩ := hs s rfl
          refine List.pairwise_append.2 ⟨?_, ih hm'.2 (fun e he => hb e (List.mem_cons_of_mem _ he)) r hr, ?_⟩
          · refine List.pairwise_map.2 (List.Pairwise.imp_of_mem (fun {a b} ha hb' hab => ?_) hss)
            rw [newFromParts_eq (hso a ha), newFromParts_eq (hso b hb')]; omega
          · intro a ha b hb2
            obtain ⟨o, ho, rfl⟩ := List.mem_map.1 ha
            rw [newFromParts_eq (hso o ho)]
            have hoo := hso o ho
            -- the rest of the list lies in later fragments
            unfold rowIds at hr
            simp only at hr
            split at hr
            · cases hr
            · cases hr
              obtain ⟨l, hl, hbl⟩ := List.mem_flatten.1 hb2
              obtain ⟨⟨k2, s2⟩, he2, hf⟩ := List.mem_filterMap.1 hl
              cases s2 with
              | full => cases hf
              | part s2 =>
                simp only [Option.some.injEq] at hf
                subst hf
                obtain ⟨o2, ho2, rfl⟩ := List.mem_map.1 hbl
                rw [newFromParts_eq ((hb' _ he2).2 s2 rfl o2 ho2)]
                have := hm'.1 _ he2
                simp only at this
                omega

example : len [(0, .part [1, 5]), (2, .part [7])] = some 3 ∧ rowIds [(0, .part [1, 5]), (2, .part [7])] =
    some [1, 5, 8589934599] := by decide

-- A non-trivial run that meets the hypotheses of the C02 theorems.
example : run [] [.insert 5, .insertFragment 3, .insertRange (.incl 4294967290) (.excl 4294967300),
    .remove 5, .union [(7, .part [1, 2])]] =
    some [(0, .part [4294967290, 4294967291, 4294967292, 4294967293, 4294967294, 4294967295]),
      (1, .part [0, 1, 2, 3]), (3, .full), (7, .part [1, 2])] := by decide

/-! ## C03 Row set serialization round trip -/

/-- The codec decodes what it encoded for this bitmap, with a non-empty encoding of 32-bit size. -/
def CodecOk (C : Codec) (s : Bm) : Prop :=
  C.dec (C.enc s) = some s ∧ 0 < (C.enc s).length ∧ (C.enc s).length < 2 ^ 32

/-- The set can be stored: keys and counts are 32-bit, and its bitmaps are handled by the codec. -/
def Storable (C : Codec) (m : TreeMap) : Prop :=
  m.Sorted ∧ m.length < 2 ^ 32 ∧ ∀ e ∈ m, e.1 < 2 ^ 32 ∧ ∀ s, e.2 = .part s → CodecOk C s

theorem desEntries_ser (C : Codec) (m acc : TreeMap) (rest : List Nat)
    (hm : SMap.Sorted (acc ++ m))
    (hb : ∀ e ∈ m, e.1 < 2 ^ 32 ∧ ∀ s, e.2 = .part s → CodecOk C s) :
    desEntries C m.length ((m.map (serEntry C)).flatten ++ rest) acc = some (acc ++ m) := by
  induction m generalizing acc with
  | nil => simp [desEntries]
  | cons e m ih =>
    obtain ⟨k, s⟩ := e
    have hk : k < U32 := (hb (k, s) (by simp)).1
    have hacc : ∀ e ∈ acc, e.1 < k := by
      intro e he
      exact (List.pairwise_append.1 hm).2.2 e he (k, s) (by simp)
    have hm' : SMap.Sorted ((acc ++ [(k, s)]) ++ m) := by simpa using hm
    have ih' := ih (acc ++ [(k, s)]) hm' (fun e he => hb e (List.mem_cons_of_mem _ he))
    cases s with
    | full =>
      simp only [List.map_cons, List.flatten_cons, serEntry, List.append_assoc, List.length_cons,
        desEntries]
      rw [readU32_u32le k hk]
      simp only
      rw [readU32_u32le 0 (by omega)]
      simp only [if_true]
      rw [insert_append_last _ _ _ hacc, ih']
      simp
    | part s =>
      obtain ⟨hdec, hpos, hlt⟩ := (hb (k, .part s) (by simp)).2 s rfl
      simp only [List.map_cons, List.flatten_cons, serEntry, List.append_assoc, List.length_cons,
        desEntries]
      rw [readU32_u32le k hk]
      simp only
      rw [readU32_u32le _ hlt]
      simp only
      rw [if_neg (by omega), if_neg (by simp)]
      simp only [List.take_left', List.drop_left', hdec]
      rw [insert_append_last _ _ _ hacc, ih']
      simp

/-- C03: writing a row set and reading it back gives the same set, whatever follows in the input. -/
theorem C03_roundtrip (C : Codec) (m : TreeMap) (h : Storable C m) (rest : List Nat) :
    deserialize C (serialize C m ++ rest) = some m := by
  unfold deserialize serialize
  rw [List.append_assoc, readU32_u32le _ h.2.1]
  simp only
  have := desEntries_ser C m [] rest (by simpa using h.1) h.2.2
  simpa using this

/-- C03: the announced size is the number of bytes written. -/
theorem C03_size (C : Codec) (m : TreeMap) : serializedSize C m = (serialize C m).length := by
  unfold serializedSize serialize
  have : ∀ n, m.foldl (fun n e => n + 8 + selSize C e.2) n
      = n + ((m.map (serEntry C)).flatten).length := by
    induction m with
    | nil => intro n; simp
    | cons e m ih =>
      intro n
      obtain ⟨k, s⟩ := e
      simp only [List.foldl_cons, List.map_cons, List.flatten_cons, List.length_append]
      rw [ih]
      cases s with
      | full => simp [serEntry, selSize]; omega
      | part s => simp [serEntry, selSize]; omega
  rw [this]
  simp

/-- C03: truncating the stored bytes is detected when the last entry is cut inside its header. -/
theorem C03_truncated_header (C : Codec) (bytes : List Nat) (h : bytes.length < 4) :
    deserialize C bytes = none := by
  unfold deserialize readU32
  match bytes with
  | [] => rfl
  | [_] => rfl
  | [_, _] => rfl
  | [_, _, _] => rfl
  | _ :: _ :: _ :: _ :: _ => simp at h; omega

/-- A simple codec, to show that the hypotheses can be met. -/
def listCodec : Codec where
  enc s := 1 :: s
  dec b := match b with | 1 :: s => some s | _ => none

example : Storable listCodec [(0, .part []), (2, .full), (9, .part [1, 5])] :=
  ⟨by unfold SMap.Sorted; decide, by decide, by
    intro e he
    simp only [List.mem_cons, List.not_mem_nil, or_false] at he
    rcases he with rfl | rfl | rfl
    · exact ⟨by decide, by intro s h; cases h; exact ⟨rfl, by decide, by decide⟩⟩
    · exact ⟨by decide, by intro s h; cases h⟩
    · exact ⟨by decide, by intro s h; cases h; exact ⟨rfl, by decide, by decide⟩⟩⟩

/-- C03: a row filter survives the conversion to an Arrow array and back. -/
theorem C03_mask_roundtrip (C : Codec) (m : Mask)
    (ha : ∀ a, m.allow = some a → Storable C a) (hb : ∀ b, m.block = some b → Storable C b) :
    maskFromArrow C (maskIntoArrow C m) = some m := by
  obtain ⟨allow, block⟩ := m
  simp only at ha hb
  have key : ∀ t, Storable C t → deserialize C (serialize C t) = some t := by
    intro t ht; simpa using C03_roundtrip C t ht []
  cases allow with
  | none =>
    cases block with
    | none => simp [maskIntoArrow, maskFromArrow]
    | some b =>
      simp [maskIntoArrow, maskFromArrow, C03_size, key b (hb b rfl)]
  | some a =>
    cases block with
    | none =>
      simp [maskIntoArrow, maskFromArrow, C03_size, key a (ha a rfl)]
    | some b =>
      simp [maskIntoArrow, maskFromArrow, C03_size, key a (ha a rfl), key b (hb b rfl)]

/-! ## C04 Row filters obey boolean logic -/

/-- The full claim for negation. -/
def C04_not_statement : Prop := ∀ (m : Mask) (v : Nat), selected (maskNot m) v = !selected m v

/-- Negating "all rows" still selects all rows (mask.rs:212-217). -/
theorem C04_not_violated : ¬ C04_not_statement := by
  intro h
  exact absurd (h ⟨none, none⟩ 0) (by decide)

/-- Negating a filter with both an allow and a block list is wrong as well. -/
theorem C04_not_violated_both :
    selected (maskNot ⟨some [(0, .part [1])], some [(0, .part [2])]⟩) 3 = false ∧
    selected ⟨some [(0, .part [1])], some [(0, .part [2])]⟩ 3 = false := by decide

/-- C04 (partial): negation is right for a filter with exactly one list.
Missing: filters with no list or with both, for which the code is wrong. -/
theorem C04_not_partial (m : Mask) (h : m.allow.isSome ≠ m.block.isSome) (v : Nat) :
    selected (maskNot m) v = !selected m v := by
  obtain ⟨a, b⟩ := m
  cases a <;> cases b <;> simp_all [selected, maskNot]

/-- A row set usable as an operand. -/
def maskSorted (m : Mask) : Prop :=
  (∀ a, m.allow = some a → SMap.Sorted a) ∧ (∀ b, m.block = some b → SMap.Sorted b)

def noFull (t : TreeMap) : Prop := ∀ f, SMap.get f t ≠ some .full

/-- The full claim for conjunction. -/
def C04_and_statement : Prop :=
  ∀ (l r : Mask) (v : Nat), maskSorted l → maskSorted r →
    selected (maskAnd l r) v = (selected l v && selected r v)

/-- C04 fails for AND through the wrong union of block lists: a filter that blocks one row of a
fragment, combined with a filter that blocks the whole fragment, lets the other rows pass.
This is the situation of a `NOT` prefilter combined with the deletion mask of a dropped fragment
(index/prefilter.rs:112-114, 228-229). -/
theorem C04_and_violated : ¬ C04_and_statement := by
  intro h
  have := h ⟨none, some [(1, .part [0])]⟩ ⟨none, some [(1, .full)]⟩ (newFromParts 1 5)
    ⟨by simp, by intro b hb; cases hb; exact List.pairwise_singleton _ _⟩
    ⟨by simp, by intro b hb; cases hb; exact List.pairwise_singleton _ _⟩
  exact absurd this (by decide)

/-- C04 (partial): AND selects exactly the rows selected by both, when the right block list has no
whole-fragment entry.  Missing: whole fragments blocked on the right. -/
theorem C04_and_partial (l r : Mask) (hl : maskSorted l) (hr : maskSorted r)
    (hf : ∀ b, r.block = some b → l.block.isSome → noFull b) (v : Nat) :
    selected (maskAnd l r) v = (selected l v && selected r v) := by
  obtain ⟨la, lb⟩ := l
  obtain ⟨ra, rb⟩ := r
  have hor : ∀ x y, lb = some x → rb = some y → contains (or x y) v = (contains x v || contains y v) := by
    intro x y hx hy
    have := memAt_or x y (hr.2 y hy) (fragmentId v) (rowOffset v)
      (fun _ _ => hf y hy (by simp [hx]) _)
    rw [contains_eq, contains_eq, contains_eq, Bool.eq_iff_iff, this]; simp
  have hand : ∀ x y, la = some x → contains (and x y) v = (contains x v && contains y v) := by
    intro x y hx
    have := memAt_and x y (hl.1 x hx) (fragmentId v) (rowOffset v)
    rw [contains_eq, contains_eq, contains_eq, Bool.eq_iff_iff, this]; simp
  cases la with
  | none =>
    cases ra with
    | none =>
      cases lb with
      | none => cases rb <;> simp [selected, maskAnd]
      | some x =>
        cases rb with
        | none => simp [selected, maskAnd]
        | some y => simp [selected, maskAnd, hor x y rfl rfl]
    | some c =>
      cases lb with
      | none => cases rb <;> simp [selected, maskAnd]
      | some x =>
        cases rb with
        | none => simp [selected, maskAnd, Bool.and_comm]
        | some y =>
          simp only [selected, maskAnd, hor x y rfl rfl]
          cases contains x v <;> cases contains y v <;> cases contains c v <;> rfl
  | some a =>
    cases ra with
    | none =>
      cases lb with
      | none => cases rb <;> simp [selected, maskAnd]
      | some x =>
        cases rb with
        | none => simp [selected, maskAnd]
        | some y =>
          simp only [selected, maskAnd, hor x y rfl rfl]
          cases contains x v <;> cases contains y v <;> cases contains a v <;> rfl
    | some c =>
      have ha := hand a c rfl
      cases lb with
      | none =>
        cases rb with
        | none => simp [selected, maskAnd, ha]
        | some y => simp [selected, maskAnd, ha, Bool.and_assoc]
      | some x =>
        cases rb with
        | none =>
          simp only [selected, maskAnd, ha]
          cases contains x v <;> cases contains a v <;> cases contains c v <;> rfl
        | some y =>
          simp only [selected, maskAnd, ha, hor x y rfl rfl]
          cases contains x v <;> cases contains y v <;> cases contains a v <;> cases contains c v <;> rfl

/-- The full claim for disjunction. -/
def C04_or_statement : Prop :=
  ∀ (l r : Mask) (v : Nat), maskSorted l → maskSorted r →
    selected (maskOr l r) v = (selected l v || selected r v)

/-- C04 fails for OR: a row allowed on the left but blocked on the right is lost
(mask.rs:249, 257).  This is `x = 2 OR y != 3` on a row with `x = 2` and `y = 3`. -/
theorem C04_or_violated : ¬ C04_or_statement := by
  intro h
  have := h ⟨some [(0, .part [4])], none⟩ ⟨none, some [(0, .part [4])]⟩ 4
    ⟨by intro b hb; cases hb; exact List.pairwise_singleton _ _, by simp⟩
    ⟨by simp, by intro b hb; cases hb; exact List.pairwise_singleton _ _⟩
  exact absurd this (by decide)

/-- OR with "all rows" is wrong when the other side has a block list. -/
theorem C04_or_violated_all :
    selected (maskOr ⟨none, none⟩ ⟨none, some [(0, .part [4])]⟩) 4 = false := by decide

/-- OR of two filters with both lists is wrong as well (too many rows). -/
theorem C04_or_violated_both :
    selected (maskOr ⟨some [(0, .part [1])], some [(0, .part [1])]⟩ ⟨some [(0, .part [2])], some [(0, .part [2])]⟩) 1
      = true ∧
    selected ⟨some [(0, .part [1])], some [(0, .part [1])]⟩ 1 = false ∧
    selected ⟨some [(0, .part [2])], some [(0, .part [2])]⟩ 1 = false := by decide

/-- When `OR` is right: two allow lists (without whole fragments on the right), two block lists,
"all rows" with a filter without block list, or an allow list and a block list that are disjoint
at the row in question. -/
def orSafe (l r : Mask) (v : Nat) : Prop :=
  (∃ a b, l = ⟨some a, none⟩ ∧ r = ⟨some b, none⟩ ∧ noFull b) ∨
  (∃ a b, l = ⟨none, some a⟩ ∧ r = ⟨none, some b⟩) ∨
  (l = ⟨none, none⟩ ∧ r.block = none) ∨ (r = ⟨none, none⟩ ∧ l.block = none) ∨
  (∃ a b, l = ⟨some a, none⟩ ∧ r = ⟨none, some b⟩ ∧ ¬ (contains a v = true ∧ contains b v = true)) ∨
  (∃ a b, l = ⟨none, some a⟩ ∧ r = ⟨some b, none⟩ ∧ ¬ (contains a v = true ∧ contains b v = true))

/-- C04 (partial): OR under `orSafe`.  Missing: the remaining combinations, wrong in the code. -/
theorem C04_or_partial (l r : Mask) (hl : maskSorted l) (hr : maskSorted r) (v : Nat)
    (h : orSafe l r v) : selected (maskOr l r) v = (selected l v || selected r v) := by
  rcases h with ⟨a, b, rfl, rfl, hb⟩ | ⟨a, b, rfl, rfl⟩ | ⟨rfl, hr'⟩ | ⟨rfl, hl'⟩ | ⟨a, b, rfl, rfl, hd⟩ | ⟨a, b, rfl, rfl, hd⟩
  · have := memAt_or a b (hr.1 b rfl) (fragmentId v) (rowOffset v) (fun _ _ => hb _)
    simp only [selected, maskOr]
    rw [contains_eq, contains_eq, contains_eq, Bool.eq_iff_iff, this]; simp
  · have := memAt_and a b (hl.2 a rfl) (fragmentId v) (rowOffset v)
    simp only [selected, maskOr]
    rw [contains_eq, contains_eq, contains_eq]
    have h2 : memAt (and a b) (fragmentId v) (rowOffset v) =
        (memAt a (fragmentId v) (rowOffset v) && memAt b (fragmentId v) (rowOffset v)) := by
      rw [Bool.eq_iff_iff, this]; simp
    rw [h2]; simp
  · obtain ⟨ra, rb⟩ := r
    simp only at hr'; subst hr'
    cases ra <;> simp [selected, maskOr]
  · obtain ⟨la, lb⟩ := l
    simp only at hl'; subst hl'
    cases la <;> simp [selected, maskOr]
  · simp only [selected, maskOr]
    cases ha : contains a v <;> cases hb : contains b v <;> simp_all
  · simp only [selected, maskOr]
    cases ha : contains a v <;> cases hb : contains b v <;> simp_all

/-- C04: an added block list removes exactly its rows (without whole fragments when there already
is a block list). -/
theorem C04_also_block (m : Mask) (b : TreeMap) (hb : b.Sorted)
    (hf : m.block.isSome → noFull b) (v : Nat) :
    selected (alsoBlock m b) v = (selected m v && !contains b v) := by
  obtain ⟨ma, mb⟩ := m
  unfold alsoBlock
  split
  · rename_i he; subst he
    simp [contains, SMap.get]
  · cases mb with
    | none => cases ma <;> simp [selected]
    | some e =>
      have h1 := memAt_or e b hb (fragmentId v) (rowOffset v) (fun _ _ => hf (by simp) _)
      have h2 : contains (or e b) v = (contains e v || contains b v) := by
        rw [contains_eq, contains_eq, contains_eq, Bool.eq_iff_iff, h1]; simp
      cases ma <;> simp [selected, h2, Bool.and_assoc]

/-- C04: an added allow list admits exactly its rows, besides the block list. -/
theorem C04_also_allow (m : Mask) (a : TreeMap) (ha : a.Sorted) (hf : noFull a) (v : Nat) :
    selected (alsoAllow m a) v =
      (selected m v || (contains a v && m.allow.isSome &&
        !(match m.block with | none => false | some b => contains b v))) := by
  obtain ⟨ma, mb⟩ := m
  cases ma with
  | none => simp [alsoAllow]
  | some e =>
    have h1 := memAt_or e a ha (fragmentId v) (rowOffset v) (fun _ _ => hf _)
    have h2 : contains (or e a) v = (contains e v || contains a v) := by
      rw [contains_eq, contains_eq, contains_eq, Bool.eq_iff_iff, h1]; simp
    cases mb with
    | none => simp [alsoAllow, selected, h2]
    | some b =>
      simp only [alsoAllow, selected, h2, Option.isSome_some]
      cases contains e v <;> cases contains a v <;> cases contains b v <;> rfl

theorem mem_positions (p : Nat → Bool) (ids : List Nat) (i j : Nat) :
    j ∈ positions p ids i ↔ ∃ k v, j = i + k ∧ ids[k]? = some v ∧ p v = true := by
  induction ids generalizing i with
  | nil => simp [positions]
  | cons x xs ih =>
    have hrest : (∃ k v, j = i + 1 + k ∧ xs[k]? = some v ∧ p v = true) ↔
        ∃ k v, j = i + (k + 1) ∧ (x :: xs)[k + 1]? = some v ∧ p v = true := by
      constructor
      · rintro ⟨k, v, h1, h2, h3⟩; exact ⟨k, v, by omega, by simpa using h2, h3⟩
      · rintro ⟨k, v, h1, h2, h3⟩; exact ⟨k, v, by omega, by simpa using h2, h3⟩
    simp only [positions]
    split
    · rename_i hp
      rw [List.mem_cons, ih, hrest]
      constructor
      · rintro (h | ⟨k, v, h1, h2, h3⟩)
        · exact ⟨0, x, by omega, by simp, hp⟩
        · exact ⟨k + 1, v, h1, h2, h3⟩
      · rintro ⟨k, v, h1, h2, h3⟩
        cases k with
        | zero => left; omega
        | succ k => exact Or.inr ⟨k, v, h1, h2, h3⟩
    · rename_i hp
      rw [ih, hrest]
      constructor
      · rintro ⟨k, v, h1, h2, h3⟩; exact ⟨k + 1, v, h1, h2, h3⟩
      · rintro ⟨k, v, h1, h2, h3⟩
        cases k with
        | zero => simp at h2; subst h2; exact absurd h3 hp
        | succ k => exact ⟨k, v, h1, h2, h3⟩

/-- C04: the selection vector lists exactly the positions whose row is selected; it panics only for
the filter without lists. -/
theorem C04_selected_indices (m : Mask) (ids : List Nat) :
    (m = ⟨none, none⟩ ↔ selectedIndices m ids = none) ∧
    (∀ out, selectedIndices m ids = some out →
      ∀ j, j ∈ out ↔ ∃ v, ids[j]? = some v ∧ selected m v = true) := by
  obtain ⟨a, b⟩ := m
  constructor
  · cases a <;> cases b <;> simp [selectedIndices]
  · intro out h j
    cases a <;> cases b <;> simp only [selectedIndices, reduceCtorEq, Option.some.injEq] at h <;>
      subst h <;> rw [mem_positions] <;> simp only [selected, Nat.zero_add] <;>
      constructor <;>
      first
        | (rintro ⟨k, v, rfl, h2, h3⟩; exact ⟨v, h2, by simpa [Bool.and_comm] using h3⟩)
        | (rintro ⟨v, h2, h3⟩; exact ⟨j, v, rfl, h2, by simpa [Bool.and_comm] using h3⟩)

example : selected (maskAnd ⟨some [(0, .part [1, 2])], none⟩ ⟨none, some [(0, .part [2])]⟩) 1 = true := by
  decide
example : orSafe ⟨some [(0, .part [1])], none⟩ ⟨none, some [(0, .part [2])]⟩ 1 :=
  Or.inr (Or.inr (Or.inr (Or.inr (Or.inl ⟨_, _, rfl, rfl, by decide⟩))))

end Verif.RowSet
