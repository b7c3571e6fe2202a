import Verif.Take.Model
import Verif.Read.PropsScan

/-!
# Lemmas for taking rows
-/
namespace Verif.Take
open Verif
open Verif.Read (Frag Row Opts Cell readImpl takeRange countRows live rowAt expected requested validLen Proper
  Splits liveOffsets)
open Verif.Deletion (DV Mapper mapOffset Outcome IsNthLive)

variable {α : Type}

/-! ## each -/

theorem each_ok {β γ : Type} (g : β → Except Fault γ) (h : β → γ) (l : List β) (hl : ∀ x ∈ l, g x = .ok (h x)) :
    each g l = .ok (l.map h) := by
  induction l with
  | nil => rfl
  | cons a l ih =>
    rw [each, hl a List.mem_cons_self]
    simp only
    rw [ih (fun x hx => hl x (List.mem_cons_of_mem _ hx))]
    rfl

theorem each_error {β γ : Type} (g : β → Except Fault γ) (l : List β)
    (hl : ∀ x ∈ l, (∃ r, g x = .ok r) ∨ g x = .error .error) (he : ∃ x ∈ l, g x = .error .error) :
    each g l = .error .error := by
  induction l with
  | nil => obtain ⟨x, hx, _⟩ := he; cases hx
  | cons a l ih =>
    rw [each]
    rcases hl a List.mem_cons_self with ⟨r, hr⟩ | hr
    · rw [hr]
      simp only
      rw [ih (fun x hx => hl x (List.mem_cons_of_mem _ hx))]
      obtain ⟨x, hx, hxe⟩ := he
      rcases List.mem_cons.mp hx with rfl | hx
      · rw [hr] at hxe; cases hxe
      · exact ⟨x, hx, hxe⟩
    · rw [hr]

/-! ## One fragment -/

theorem contiguousFrom_eq (a : Nat) (l : List Nat) (h : contiguousFrom a l = true) :
    a :: l = List.range' a (l.length + 1) := by
  induction l generalizing a with
  | nil => rfl
  | cons b l ih =>
    simp only [contiguousFrom, Bool.and_eq_true, decide_eq_true_eq] at h
    have := ih b h.2
    rw [h.1] at this ⊢
    rw [this, List.length_range', List.range'_succ (n := l.length + 1)]

theorem getLast_range' (a n : Nat) (l : List Nat) (hne : l ≠ []) (h : l = List.range' a (n + 1)) :
    l.getLast hne = a + n := by
  subst h
  rw [List.getLast_eq_getElem]
  simp

/-- What a read of physical offsets returns, both ways of reading. -/
theorem takeRowsFrag_ok (split : List α → List (List α)) (hsp : Splits split) (f : Frag α) (hf : f.OK)
    (offsets : List Nat) (wa : Bool) (h : ∀ o ∈ offsets, o < f.rows) :
    takeRowsFrag split f offsets wa = .ok ((offsets.filter (live f.dv)).map (rowAt f ⟨false, wa, false⟩)) := by
  have hidx : ∃ bs, readImpl split f ⟨false, wa, false⟩ (.indices offsets) = some bs ∧
      bs.flatten = (offsets.filter (live f.dv)).map (rowAt f ⟨false, wa, false⟩) :=
    Read.C28_rows_partial split f ⟨false, wa, false⟩ (.indices offsets) hsp hf rfl
      (by
        simp only [validLen, List.all_eq_true, decide_eq_true_eq]
        intro o ho
        rw [Nat.mod_eq_of_lt hf.rows]; exact h o ho) trivial (Or.inl rfl)
  obtain ⟨bs, e1, e2⟩ := hidx
  unfold takeRowsFrag
  simp only
  split
  · rename_i r hr
    split at hr
    · rename_i a b l
      split at hr
      · rename_i hc
        exfalso
        have hrange := contiguousFrom_eq a (b :: l) hc
        have hlast := getLast_range' a (b :: l).length (a :: b :: l) (by simp) hrange
        rw [List.getLast_cons (by simp)] at hlast
        have hmem : (b :: l).getLast (by simp) ∈ a :: b :: l := List.mem_cons_of_mem _ (List.getLast_mem _)
        have hlt := h _ hmem
        rw [hlast] at hlt hr
        obtain ⟨bs', e1', _⟩ := Read.C28_rows_partial split f ⟨false, wa, false⟩ (.range a (a + (b :: l).length + 1)) hsp hf rfl
          (by simp only [validLen, Bool.and_eq_true, decide_eq_true_eq]; omega) (by show a ≤ _; omega) (Or.inl rfl)
        rw [takeRange, e1'] at hr
        cases hr
      · rw [e1] at hr; cases hr
    · rw [e1] at hr; cases hr
  · rename_i r bs2 hr
    split at hr
    · rename_i a b l
      split at hr
      · rename_i hc
        have hrange := contiguousFrom_eq a (b :: l) hc
        have hlast := getLast_range' a (b :: l).length (a :: b :: l) (by simp) hrange
        rw [List.getLast_cons (by simp)] at hlast
        have hmem : (b :: l).getLast (by simp) ∈ a :: b :: l := List.mem_cons_of_mem _ (List.getLast_mem _)
        have hlt := h _ hmem
        rw [hlast] at hlt hr
        obtain ⟨bs', e1', e2'⟩ := Read.C28_rows_partial split f ⟨false, wa, false⟩ (.range a (a + (b :: l).length + 1)) hsp hf rfl
          (by simp only [validLen, Bool.and_eq_true, decide_eq_true_eq]; omega) (by show a ≤ _; omega) (Or.inl rfl)
        rw [takeRange, e1'] at hr
        cases hr
        rw [e2', expected, requested, Read.range_filter_ge, show a + (b :: l).length + 1 - a = (b :: l).length + 1 by omega,
          ← hrange]
      · rw [e1] at hr; cases hr; rw [e2]
    · rw [e1] at hr; cases hr; rw [e2]

theorem readImpl_invalid (split : List α → List (List α)) (f : Frag α) (hf : f.OK) (o : Opts)
    (p : RowIds.Seq.Params) (h : validLen p f.rows = false) : readImpl split f o p = none := by
  unfold readImpl
  rw [Nat.mod_eq_of_lt hf.rows, h]
  rfl

theorem takeRowsFrag_error (split : List α → List (List α)) (f : Frag α) (hf : f.OK)
    (offsets : List Nat) (wa : Bool) (h : ∃ o ∈ offsets, f.rows ≤ o) :
    takeRowsFrag split f offsets wa = .error .error := by
  obtain ⟨o, ho, hge⟩ := h
  have hidx : readImpl split f ⟨false, wa, false⟩ (.indices offsets) = none := by
    apply readImpl_invalid split f hf
    simp only [validLen, List.all_eq_false, decide_eq_true_eq]
    exact ⟨o, ho, by rw [Nat.mod_eq_of_lt hf.rows]; omega⟩
  unfold takeRowsFrag
  simp only
  split
  · rfl
  · rename_i r bs hr
    exfalso
    split at hr
    · rename_i a b l
      split at hr
      · rename_i hc
        have hrange := contiguousFrom_eq a (b :: l) hc
        have hlast := getLast_range' a (b :: l).length (a :: b :: l) (by simp) hrange
        rw [List.getLast_cons (by simp)] at hlast
        rw [hlast] at hr
        have : o ≤ a + (b :: l).length := by
          rw [hrange, List.mem_range'_1] at ho; omega
        rw [takeRange, readImpl_invalid split f hf] at hr
        · cases hr
        · simp only [validLen, Bool.and_eq_false_iff, decide_eq_false_iff_not]; right; omega
      · rw [hidx] at hr; cases hr
    · rw [hidx] at hr; cases hr

/-! ## By address -/

/-- The value of the live row at an address. -/
def rowAt? (frags : List (Frag α)) (a : Nat) : Option α :=
  (frags.find? (fun f => f.id == a / U32)).bind (fun f =>
    if a % U32 < f.rows ∧ live f.dv (a % U32) = true then some (f.file (a % U32)) else none)

/-- Fragments as a dataset has them: readable, with distinct 32-bit ids. -/
structure DatasetOK (frags : List (Frag α)) : Prop where
  ok : ∀ f ∈ frags, f.OK
  ids : ∀ f ∈ frags, f.id < U32
  distinct : (frags.map (·.id)).Nodup

theorem find_frag {frags : List (Frag α)} (hd : (frags.map (·.id)).Nodup) {f : Frag α} (hf : f ∈ frags) {n : Nat}
    (hn : f.id = n) : frags.find? (fun g => g.id == n) = some f := by
  induction frags with
  | nil => cases hf
  | cons g frags ih =>
    simp only [List.map_cons, List.nodup_cons] at hd
    rcases List.mem_cons.mp hf with rfl | hf
    · simp [hn]
    · have : ¬ g.id = n := by
        intro h
        apply hd.1
        rw [h, ← hn]
        exact List.mem_map_of_mem hf
      rw [List.find?_cons_of_neg (by simpa using this)]
      exact ih hd.2 hf

theorem rowAt?_of {frags : List (Frag α)} (hd : (frags.map (·.id)).Nodup) {f : Frag α} (hf : f ∈ frags) {a : Nat}
    (hn : f.id = a / U32) (hlt : a % U32 < f.rows) :
    rowAt? frags a = if live f.dv (a % U32) = true then some (f.file (a % U32)) else none := by
  unfold rowAt?
  rw [find_frag hd hf hn]
  simp [hlt]

theorem rowAt?_missing {frags : List (Frag α)} {a : Nat} (h : ∀ f ∈ frags, f.id ≠ a / U32) : rowAt? frags a = none := by
  unfold rowAt?
  rw [List.find?_eq_none.mpr (by intro f hf; simpa using h f hf)]
  rfl

/-- Addresses within one fragment. -/
theorem filterMap_rowAt? {frags : List (Frag α)} (hd : (frags.map (·.id)).Nodup) {f : Frag α} (hf : f ∈ frags)
    (o : Opts) (addrs : List Nat) (h : ∀ a ∈ addrs, f.id = a / U32 ∧ a % U32 < f.rows) :
    (((addrs.map (· % U32)).filter (live f.dv)).map (rowAt f o)).map (·.data) = addrs.filterMap (rowAt? frags) := by
  induction addrs with
  | nil => rfl
  | cons a l ih =>
    obtain ⟨h1, h2⟩ := h a List.mem_cons_self
    have hl := ih (fun x hx => h x (List.mem_cons_of_mem _ hx))
    rw [List.filterMap_cons, rowAt?_of hd hf h1 h2, List.map_cons, List.filter_cons]
    by_cases hlive : live f.dv (a % U32) = true
    · simp only [hlive, if_true, List.map_cons, hl]
      rfl
    · simp only [hlive, Bool.false_eq_true, if_false, hl]

theorem checkLoop_sorted (fst last : Nat) (s c : Bool) (l : List Nat) :
    (checkLoop fst last s c l).1 = true ↔ s = true ∧ (last :: l).Pairwise (· < ·) := by
  induction l generalizing last s c with
  | nil => simp [checkLoop]
  | cons a l ih =>
    rw [checkLoop, ih]
    simp only [Bool.and_eq_true, decide_eq_true_eq, List.pairwise_cons, List.mem_cons]
    constructor
    · rintro ⟨⟨h1, h2⟩, h3, h4⟩
      refine ⟨h1, ?_, h3, h4⟩
      rintro b (rfl | hb)
      · exact h2
      · have := h3 b hb; omega
    · rintro ⟨h1, h2, h3, h4⟩
      exact ⟨⟨h1, h2 a (Or.inl rfl)⟩, h3, h4⟩

theorem checkLoop_contiguous (fst last : Nat) (s c : Bool) (l : List Nat) (hlast : last / U32 = fst)
    (h64 : last < U64) (h : (checkLoop fst last s c l).2 = true) :
    last :: l = List.range' last (l.length + 1) ∧ ∀ a ∈ last :: l, a / U32 = fst := by
  induction l generalizing last s c with
  | nil => exact ⟨rfl, by simpa using hlast⟩
  | cons a l ih =>
    rw [checkLoop] at h
    have hc : decide (a = (last + 1) % U64) = true ∧ decide (a / U32 = fst) = true := by
      have key : ∀ (l : List Nat) (last : Nat) (s c : Bool), (checkLoop fst last s c l).2 = true → c = true := by
        intro l
        induction l with
        | nil => intro last s c h; exact h
        | cons b l ih =>
          intro last s c h
          rw [checkLoop] at h
          have := ih _ _ _ h
          simp only [Bool.and_eq_true] at this
          exact this.1.1
      have := key _ _ _ _ h
      simp only [Bool.and_eq_true] at this
      exact ⟨this.1.2, this.2⟩
    simp only [decide_eq_true_eq] at hc
    obtain ⟨h1, h2⟩ := hc
    have hne : last + 1 < U64 := by
      rcases Nat.lt_or_ge (last + 1) U64 with h' | h'
      · exact h'
      · exfalso
        have : last = 18446744073709551615 := by omega
        subst this
        simp at h1
        subst h1
        simp at h2
        omega
    rw [Nat.mod_eq_of_lt hne] at h1
    obtain ⟨i1, i2⟩ := ih a _ _ h2 (by omega) h
    refine ⟨?_, ?_⟩
    · rw [i1, List.length_range', h1, List.range'_succ (n := l.length + 1)]
    · intro x hx
      rcases List.mem_cons.mp hx with rfl | hx
      · exact hlast
      · exact i2 x hx

theorem runsFrom_spec (cur : Nat) (acc l : List Nat) (hacc : ∀ a ∈ acc, a / U32 = cur) :
    ((runsFrom cur acc l).flatMap (·.2)) = acc ++ l ∧
    (∀ r ∈ runsFrom cur acc l, ∀ a ∈ r.2, a / U32 = r.1) ∧
    (l.head?.isSome → ∃ r ∈ runsFrom cur acc l, True) := by
  induction l generalizing cur acc with
  | nil =>
    unfold runsFrom
    split
    · rename_i h; subst h; simp
    · refine ⟨by simp, ?_, by simp⟩
      intro r hr; simp at hr; subst hr; exact hacc
  | cons a l ih =>
    unfold runsFrom
    split
    · rename_i h
      obtain ⟨i1, i2, _⟩ := ih cur (acc ++ [a]) (by
        intro x hx
        rcases List.mem_append.mp hx with hx | hx
        · exact hacc x hx
        · simp at hx; rw [hx]; exact h)
      refine ⟨by rw [i1]; simp, i2, ?_⟩
      intro _
      cases hr : runsFrom cur (acc ++ [a]) l with
      | nil => rw [hr] at i1; simp at i1
      | cons r rs => exact ⟨r, List.mem_cons_self, trivial⟩
    · obtain ⟨i1, i2, _⟩ := ih (a / U32) [a] (by simp)
      refine ⟨by rw [List.flatMap_cons, i1]; simp, ?_, fun _ => ⟨_, List.mem_cons_self, trivial⟩⟩
      intro r hr
      rcases List.mem_cons.mp hr with rfl | hr
      · exact hacc
      · exact i2 r hr

theorem mem_dedup (l : List Nat) (x : Nat) : x ∈ dedup l ↔ x ∈ l := by
  induction l with
  | nil => simp [dedup]
  | cons a l ih =>
    unfold dedup
    cases h : dedup l with
    | nil =>
      rw [h] at ih
      simp only [List.mem_cons, ← ih]
    | cons b m =>
      rw [h] at ih
      simp only
      split
      · rename_i e
        rw [List.mem_cons (a := x) (b := a), ← ih, e]
        constructor
        · intro h; exact Or.inr h
        · rintro (rfl | h)
          · exact List.mem_cons_self
          · exact h
      · rw [List.mem_cons, ih, List.mem_cons]

theorem mem_sorted (addrs : List Nat) (x : Nat) : x ∈ dedup (sortBy id addrs) ↔ x ∈ addrs := by
  rw [mem_dedup, mem_sortBy]

theorem mem_perFragment {frags : List (Frag α)} {sorted : List Nat} {x : Frag α × List Nat} :
    x ∈ perFragment frags sorted ↔ x.1 ∈ frags ∧
      x.2 = (sorted.filter (fun a => a / U32 == x.1.id)).map (· % U32) ∧ x.2 ≠ [] := by
  unfold perFragment
  rw [List.mem_filterMap]
  constructor
  · rintro ⟨f, hf, h⟩
    cases hs : sorted.filter (fun a => a / U32 == f.id) with
    | nil => rw [hs] at h; cases h
    | cons a os =>
      rw [hs] at h
      cases h
      exact ⟨hf, by simp only; rw [hs], by simp⟩
  · rintro ⟨h1, h2, h3⟩
    refine ⟨x.1, h1, ?_⟩
    cases hs : sorted.filter (fun a => a / U32 == x.1.id) with
    | nil => rw [hs] at h2; exact absurd h2 h3
    | cons a os =>
      rw [hs] at h2
      simp only
      rw [← h2]

theorem find_map_eq {β γ : Type} (rows : List β) (P : β → Bool) (g : β → γ) (v : Option γ)
    (h1 : ∀ r ∈ rows, P r = true → v = some (g r)) (h2 : v.isSome → ∃ r ∈ rows, P r = true) :
    (rows.find? P).map g = v := by
  cases hf : rows.find? P with
  | none =>
    rw [List.find?_eq_none] at hf
    cases v with
    | none => rfl
    | some w =>
      obtain ⟨r, hr, hp⟩ := h2 rfl
      exact absurd hp (hf r hr)
  | some r =>
    rw [h1 r (List.mem_of_find?_eq_some hf) (List.find?_some hf)]
    rfl

theorem mod_div_addr {f o : Nat} (ho : o < U32) : (f * U32 + o) / U32 = f ∧ (f * U32 + o) % U32 = o := by
  constructor <;> omega

/-- The unsorted path: requested rows in order; what does not exist is left out. -/
theorem slow_reorder (split : List α → List (List α)) (hsp : Splits split) (frags : List (Frag α)) (hd : DatasetOK frags)
    (addrs : List Nat) (hin : ∀ a ∈ addrs, ∀ f ∈ frags, f.id = a / U32 → a % U32 < f.rows) :
    ∃ bs, each (fun x => takeRowsFrag split x.1 x.2 true) (perFragment frags (dedup (sortBy id addrs))) = .ok bs ∧
      (bs = [] ↔ ∀ a ∈ addrs, ∀ f ∈ frags, f.id ≠ a / U32) ∧
      reorder bs.flatten addrs = addrs.filterMap (rowAt? frags) := by
  have hmem := mem_sorted addrs
  refine ⟨(perFragment frags (dedup (sortBy id addrs))).map
    (fun x => (x.2.filter (live x.1.dv)).map (rowAt x.1 ⟨false, true, false⟩)), ?_, ?_, ?_⟩
  · apply each_ok
    intro x hx
    obtain ⟨h1, h2, _⟩ := mem_perFragment.mp hx
    apply takeRowsFrag_ok split hsp x.1 (hd.ok _ h1)
    intro o ho
    rw [h2, List.mem_map] at ho
    obtain ⟨a, ha, rfl⟩ := ho
    rw [List.mem_filter] at ha
    exact hin a ((hmem a).mp ha.1) x.1 h1 (by simpa using (beq_iff_eq.mp ha.2).symm)
  · rw [List.map_eq_nil_iff]
    constructor
    · intro hnil a ha f hf hid
      have : (f, ((dedup (sortBy id addrs)).filter (fun a => a / U32 == f.id)).map (· % U32)) ∈
          perFragment frags (dedup (sortBy id addrs)) := by
        rw [mem_perFragment]
        refine ⟨hf, rfl, ?_⟩
        apply List.ne_nil_of_mem (a := a % U32)
        apply List.mem_map_of_mem (f := (· % U32))
        rw [List.mem_filter]
        exact ⟨(hmem a).mpr ha, by simp [hid]⟩
      rw [hnil] at this
      cases this
    · intro h
      cases hp : perFragment frags (dedup (sortBy id addrs)) with
      | nil => rfl
      | cons x xs =>
        exfalso
        obtain ⟨h1, h2, h3⟩ := mem_perFragment.mp (by rw [hp]; exact List.mem_cons_self : x ∈ perFragment frags (dedup (sortBy id addrs)))
        rw [h2] at h3
        obtain ⟨o, ho⟩ := List.exists_mem_of_ne_nil _ h3
        rw [List.mem_map] at ho
        obtain ⟨a, ha, _⟩ := ho
        rw [List.mem_filter] at ha
        exact h a ((hmem a).mp ha.1) x.1 h1 (beq_iff_eq.mp ha.2).symm
  · unfold reorder
    have key : ∀ a ∈ addrs, ((((perFragment frags (dedup (sortBy id addrs))).map
        (fun x => (x.2.filter (live x.1.dv)).map (rowAt x.1 ⟨false, true, false⟩))).flatten.find?
          (fun r => decide (r.addr = .val a))).map (·.data)) = rowAt? frags a := by
      intro a ha
      apply find_map_eq
      · intro r hr hp
        simp only [decide_eq_true_eq] at hp
        rw [List.mem_flatten] at hr
        obtain ⟨b, hb, hrb⟩ := hr
        obtain ⟨x, hx, rfl⟩ := List.mem_map.mp hb
        obtain ⟨h1, h2, _⟩ := mem_perFragment.mp hx
        obtain ⟨o, ho, rfl⟩ := List.mem_map.mp hrb
        rw [List.mem_filter] at ho
        obtain ⟨ho1, ho2⟩ := ho
        rw [h2, List.mem_map] at ho1
        obtain ⟨a', ha', rfl⟩ := ho1
        have ha'' := (List.mem_filter.mp ha')
        have hrows := hin a' ((hmem a').mp ha''.1) x.1 h1 (beq_iff_eq.mp ha''.2).symm
        have hlt : a' % U32 < U32 := Nat.mod_lt _ (by decide)
        simp only [rowAt, if_true, Cell.val.injEq] at hp
        obtain ⟨e1, e2⟩ := mod_div_addr (f := x.1.id) hlt
        rw [hp] at e1 e2
        rw [rowAt?_of hd.distinct h1 e1.symm (by rw [e2]; exact hrows), e2, if_pos ho2]
        rfl
      · intro hs
        cases hv : rowAt? frags a with
        | none => rw [hv] at hs; cases hs
        | some v =>
          have hex : ∃ f ∈ frags, f.id = a / U32 := by
            by_cases h : ∃ f ∈ frags, f.id = a / U32
            · exact h
            · rw [rowAt?_missing (fun f hf e => h ⟨f, hf, e⟩)] at hv; cases hv
          obtain ⟨f, hf, hid⟩ := hex
          have hlt := hin a ha f hf hid
          rw [rowAt?_of hd.distinct hf hid hlt] at hv
          have hlive : live f.dv (a % U32) = true := by
            by_cases h : live f.dv (a % U32) = true
            · exact h
            · rw [if_neg h] at hv; cases hv
          refine ⟨rowAt f ⟨false, true, false⟩ (a % U32), ?_, ?_⟩
          · rw [List.mem_flatten]
            refine ⟨_, List.mem_map_of_mem (a := (f, ((dedup (sortBy id addrs)).filter (fun a => a / U32 == f.id)).map (· % U32))) ?_, ?_⟩
            · rw [mem_perFragment]
              refine ⟨hf, rfl, ?_⟩
              apply List.ne_nil_of_mem (a := a % U32)
              apply List.mem_map_of_mem (f := (· % U32))
              rw [List.mem_filter]
              exact ⟨(hmem a).mpr ha, by simp [hid]⟩
            · apply List.mem_map_of_mem
              rw [List.mem_filter]
              refine ⟨?_, hlive⟩
              apply List.mem_map_of_mem (f := (· % U32))
              rw [List.mem_filter]
              exact ⟨(hmem a).mpr ha, by simp [hid]⟩
          · simp only [rowAt, if_true, decide_eq_true_eq, Cell.val.injEq, hid]
            omega
    clear hin
    revert key
    generalize ((perFragment frags (dedup (sortBy id addrs))).map
        (fun x => (x.2.filter (live x.1.dv)).map (rowAt x.1 ⟨false, true, false⟩))).flatten = rows
    intro key
    clear hmem
    induction addrs with
    | nil => rfl
    | cons a l ih =>
      rw [List.filterMap_cons, List.filterMap_cons, key a List.mem_cons_self,
        ih (fun x hx => key x (List.mem_cons_of_mem _ hx))]

end Verif.Take
