import Verif.Merge.Partial
import Verif.Merge.PropsMerge
import Verif.Join.PropsUpdater

/-!
# Lemmas for merge insert with some of the columns
-/
namespace Verif.Merge
open Verif
open Verif.Read (Frag Row Opts Cell scanV2 readAll allRows liveRows liveOffsets rowAt live Splits)
open Verif.Update (idValue newFrags commitUpdate Table)
open Verif.Join (updateLoop Restorer deletedOf)

/-! ## Runs -/

section Runs
variable {K β : Type} [DecidableEq K]

theorem runs_nil_iff (l : List (K × β)) : runs l = [] ↔ l = [] := by
  cases l with
  | nil => simp [runs]
  | cons x l =>
    obtain ⟨k, b⟩ := x
    simp only [runs, reduceCtorEq, iff_false]
    cases runs l with
    | nil => simp
    | cons y rest =>
      simp only
      split <;> simp

theorem runs_head (k : K) (b : β) (l : List (K × β)) : ∃ bs rest, runs ((k, b) :: l) = (k, b :: bs) :: rest := by
  simp only [runs]
  cases runs l with
  | nil => exact ⟨_, _, rfl⟩
  | cons y rest =>
    simp only
    split
    · exact ⟨_, _, rfl⟩
    · exact ⟨_, _, rfl⟩

/-- A run followed by something else. -/
theorem runs_append (c : K) (bs : List β) (hb : bs ≠ []) (rest : List (K × β))
    (hr : ∀ x ∈ rest.head?, x.1 ≠ c) :
    runs (bs.map (fun b => (c, b)) ++ rest) = (c, bs) :: runs rest := by
  induction bs with
  | nil => exact absurd rfl hb
  | cons b bs ih =>
    cases bs with
    | nil =>
      simp only [List.map_cons, List.map_nil, List.cons_append, List.nil_append]
      cases rest with
      | nil => rfl
      | cons x rest =>
        obtain ⟨k, d⟩ := x
        obtain ⟨ds, r', e⟩ := runs_head k d rest
        have hne : k ≠ c := hr (k, d) (by simp)
        rw [runs, e]
        simp only
        rw [if_neg (fun h => hne h.symm)]
    | cons b' bs =>
      have ih := ih (by simp)
      simp only [List.map_cons, List.cons_append] at ih ⊢
      rw [runs, ih]
      simp

/-- The rows of ranges, keyed again. -/
def unrun (us : List (K × List β)) : List (K × β) := us.flatMap (fun u => u.2.map (fun b => (u.1, b)))

/-- What `compute_ranges` gives: no empty range, neighbours differ. -/
def Ranges (us : List (K × List β)) : Prop :=
  (∀ u ∈ us, u.2 ≠ []) ∧ ∀ i, (h : i + 1 < us.length) → us[i].1 ≠ us[i + 1].1

theorem Ranges.tail {u : K × List β} {us : List (K × List β)} (h : Ranges (u :: us)) : Ranges us :=
  ⟨fun x hx => h.1 x (List.mem_cons_of_mem _ hx), fun i hi => h.2 (i + 1) (by simpa using hi)⟩

theorem Ranges.head_ne {u v : K × List β} {us : List (K × List β)} (h : Ranges (u :: v :: us)) : u.1 ≠ v.1 :=
  h.2 0 (by simp)

theorem ranges_cons {u v : K × List β} {us : List (K × List β)} (h : Ranges (v :: us)) (h1 : u.2 ≠ []) (h2 : u.1 ≠ v.1) :
    Ranges (u :: v :: us) := by
  constructor
  · intro x hx
    rcases List.mem_cons.mp hx with e | hx
    · rw [e]; exact h1
    · exact h.1 x hx
  · intro i hi
    cases i with
    | zero => exact h2
    | succ i => exact h.2 i (by simpa using hi)

theorem runs_ranges (l : List (K × β)) : Ranges (runs l) ∧ unrun (runs l) = l := by
  induction l with
  | nil => exact ⟨⟨by simp [runs], by simp [runs]⟩, rfl⟩
  | cons x l ih =>
    obtain ⟨k, b⟩ := x
    obtain ⟨ih1, ih2⟩ := ih
    simp only [runs]
    cases hr : runs l with
    | nil =>
      have : l = [] := (runs_nil_iff l).mp hr
      subst this
      exact ⟨⟨by simp, by simp⟩, rfl⟩
    | cons y rest =>
      obtain ⟨k', bs⟩ := y
      rw [hr] at ih1 ih2
      simp only
      by_cases hk : k = k'
      · rw [if_pos hk]
        subst hk
        refine ⟨⟨?_, ?_⟩, ?_⟩
        · intro u hu
          rcases List.mem_cons.mp hu with e | hu
          · rw [e]; simp
          · exact ih1.1 u (List.mem_cons_of_mem _ hu)
        · intro i hi
          have := ih1.2 i (by simpa using hi)
          cases i with
          | zero => exact this
          | succ i => exact this
        · unfold unrun at ih2 ⊢
          rw [List.flatMap_cons] at ih2 ⊢
          simp only [List.map_cons, List.cons_append]
          rw [ih2]
      · rw [if_neg hk]
        refine ⟨ranges_cons ih1 (by simp) hk, ?_⟩
        unfold unrun at ih2 ⊢
        rw [List.flatMap_cons, ih2]
        rfl

theorem runs_length (l : List (K × β)) : (runs l).length ≤ l.length := by
  have h := runs_ranges l
  have h1 : ∀ us : List (K × List β), (∀ u ∈ us, u.2 ≠ []) → us.length ≤ (unrun us).length := by
    intro us
    induction us with
    | nil => intro _; simp
    | cons u us ih =>
      intro hu
      have := ih (fun x hx => hu x (List.mem_cons_of_mem _ hx))
      have h2 := List.length_pos_iff.mpr (hu u List.mem_cons_self)
      unfold unrun at this ⊢
      rw [List.flatMap_cons, List.length_append, List.length_map, List.length_cons]
      omega
  have := h1 (runs l) h.1.1
  rw [h.2] at this
  exact this

/-- The rows a grouper has taken in and not given out. -/
def Grouper.rows (g : Grouper K β) : List (K × β) :=
  (match g.current with | some c => g.buffer.flatten.map (fun b => (c, b)) | none => []) ++ unrun g.unprocessed

/-- Its invariant. -/
def Grouper.OK (g : Grouper K β) : Prop :=
  Ranges g.unprocessed ∧
  match g.current with
  | some _ => g.buffer.flatten ≠ []
  | none => g.buffer = []

theorem pull_spec (g : Grouper K β) (h : g.OK) :
    g.pull.OK ∧ g.pull.rows = g.rows ∧
    (∀ c k b us, g.pull.current = some c → g.pull.unprocessed = (k, b) :: us → c ≠ k) ∧
    (g.pull.current = none → g.pull.unprocessed = []) ∧
    (g.pull.current = none ∨ g.pull.unprocessed = [] → g.pull.unprocessed = []) ∧
    g.pull.unprocessed.length + (if g.pull.current.isSome then 1 else 0) ≤
      g.unprocessed.length + (if g.current.isSome then 1 else 0) := by
  obtain ⟨cur, buf, us⟩ := g
  obtain ⟨h1, h2⟩ := h
  simp only at h1 h2
  cases us with
  | nil =>
    refine ⟨⟨h1, h2⟩, rfl, ?_, ?_, ?_, ?_⟩
    · intro c k b us _ h; simp [Grouper.pull] at h
    · intro _; rfl
    · intro _; rfl
    · exact Nat.le_refl _
  | cons u us =>
    obtain ⟨k, b⟩ := u
    cases cur with
    | none =>
      simp only at h2
      subst h2
      have hp : (Grouper.pull ⟨none, [], (k, b) :: us⟩ : Grouper K β) = ⟨some k, [b], us⟩ := rfl
      rw [hp]
      refine ⟨⟨h1.tail, ?_⟩, ?_, ?_, ?_, ?_, ?_⟩
      · simpa using h1.1 (k, b) List.mem_cons_self
      · simp [Grouper.rows, unrun]
      · intro c k' b' us' e1 e2
        simp only [Option.some.injEq] at e1
        subst e1
        simp only at e2
        rw [e2] at h1
        exact h1.head_ne
      · intro h; cases h
      · rintro (h | h)
        · cases h
        · exact h
      · simp
    | some c =>
      simp only at h2
      by_cases hc : c = k
      · have hp : (Grouper.pull ⟨some c, buf, (k, b) :: us⟩ : Grouper K β) = ⟨some c, buf ++ [b], us⟩ := by
          simp [Grouper.pull, hc]
        rw [hp]
        subst hc
        refine ⟨⟨h1.tail, ?_⟩, ?_, ?_, ?_, ?_, ?_⟩
        · simp only [List.flatten_append, ne_eq, List.append_eq_nil_iff, not_and]
          intro h; exact absurd h h2
        · simp [Grouper.rows, unrun]
        · intro c k' b' us' e1 e2
          simp only [Option.some.injEq] at e1
          subst e1
          simp only at e2
          rw [e2] at h1
          exact h1.head_ne
        · intro h; cases h
        · rintro (h | h)
          · cases h
          · exact h
        · simp
      · have hp : (Grouper.pull ⟨some c, buf, (k, b) :: us⟩ : Grouper K β) = ⟨some c, buf, (k, b) :: us⟩ := by
          simp [Grouper.pull, hc]
        rw [hp]
        refine ⟨⟨h1, h2⟩, rfl, ?_, ?_, ?_, Nat.le_refl _⟩
        · intro c' k' b' us' e1 e2
          simp only [Option.some.injEq] at e1
          simp only [List.cons.injEq, Prod.mk.injEq] at e2
          rw [← e1, ← e2.1.1]; exact hc
        · intro h; cases h
        · rintro (h | h)
          · cases h
          · exact h

/-- Groups as runs. -/
def flat (gs : List (K × List (List β))) : List (K × List β) := gs.map (fun g => (g.1, g.2.flatten))

theorem pollAll_spec (n : Nat) (g : Grouper K β) (input : List (List (K × β))) (hg : g.OK)
    (hin : ∀ b ∈ input, b ≠ [])
    (hn : g.unprocessed.length + (if g.current.isSome then 1 else 0) + (input.map (fun b => b.length + 1)).sum < n) :
    ∃ gs, pollAll n g input = some gs ∧ flat gs = runs (g.rows ++ input.flatten) := by
  induction n generalizing g input with
  | zero => omega
  | succ n ih =>
    obtain ⟨p1, p2, p3, p4, _, p6⟩ := pull_spec g hg
    rw [← p2]
    unfold pollAll
    generalize hg' : g.pull = g' at p1 p2 p3 p4 p6
    obtain ⟨cur, buf, us⟩ := g'
    cases cur with
    | none =>
      have hu : us = [] := p4 rfl
      subst hu
      have hb : buf = [] := p1.2
      subst hb
      have hrows : (⟨none, [], []⟩ : Grouper K β).rows = [] := rfl
      rw [hrows, List.nil_append]
      simp only [Grouper.emit]
      cases input with
      | nil => exact ⟨[], rfl, rfl⟩
      | cons b rest =>
        simp only
        have hb := hin b List.mem_cons_self
        have he : b.isEmpty = false := by simpa using hb
        rw [he]
        simp only [Bool.false_eq_true, if_false]
        have hb' := runs_ranges b
        obtain ⟨gs, h1, h2⟩ := ih ⟨none, [], runs b⟩ rest ⟨hb'.1, rfl⟩ (fun x hx => hin x (List.mem_cons_of_mem _ hx)) (by
          have := runs_length b
          simp only [List.map_cons, List.sum_cons] at hn
          simp
          omega)
        refine ⟨gs, h1, ?_⟩
        rw [h2]
        simp [Grouper.rows, hb'.2]
    | some c =>
      have hbuf : buf.flatten ≠ [] := p1.2
      cases us with
      | nil =>
        simp only [Grouper.emit]
        cases input with
        | nil =>
          refine ⟨[(c, buf)], rfl, ?_⟩
          have : (⟨some c, buf, []⟩ : Grouper K β).rows = buf.flatten.map (fun b => (c, b)) := by
            simp [Grouper.rows, unrun]
          rw [this, List.flatten_nil, runs_append c _ hbuf [] (by simp)]
          rfl
        | cons b rest =>
          simp only
          have hb := hin b List.mem_cons_self
          have he : b.isEmpty = false := by simpa using hb
          rw [he]
          simp only [Bool.false_eq_true, if_false]
          have hb' := runs_ranges b
          obtain ⟨gs, h1, h2⟩ := ih ⟨some c, buf, runs b⟩ rest ⟨hb'.1, hbuf⟩ (fun x hx => hin x (List.mem_cons_of_mem _ hx)) (by
            have := runs_length b
            simp only [List.map_cons, List.sum_cons] at hn
            simp only [Option.isSome_some, if_true, List.length_nil] at p6 ⊢
            omega)
          refine ⟨gs, h1, ?_⟩
          rw [h2]
          have hu0 : unrun ([] : List (K × List β)) = [] := rfl
          simp [Grouper.rows, hb'.2, hu0]
      | cons u us =>
        obtain ⟨k, b⟩ := u
        have hne := p3 c k b us rfl rfl
        simp only [Grouper.emit]
        obtain ⟨gs, h1, h2⟩ := ih ⟨none, [], (k, b) :: us⟩ input ⟨p1.1, rfl⟩ hin (by
          simp only [Option.isSome_some, if_true, List.length_cons] at p6 ⊢
          simp
          omega)
        refine ⟨(c, buf) :: gs, ?_, ?_⟩
        · rw [h1]; rfl
        · have hrest : (⟨none, [], (k, b) :: us⟩ : Grouper K β).rows = unrun ((k, b) :: us) := by
            simp [Grouper.rows]
          have hall : (⟨some c, buf, (k, b) :: us⟩ : Grouper K β).rows =
              buf.flatten.map (fun b => (c, b)) ++ unrun ((k, b) :: us) := by
            simp [Grouper.rows]
          rw [hrest] at h2
          rw [hall, List.append_assoc, runs_append c _ hbuf]
          · unfold flat at h2 ⊢
            rw [List.map_cons, h2]
          · intro x hx
            have hb : b ≠ [] := p1.1.1 (k, b) List.mem_cons_self
            obtain ⟨b0, bs, e⟩ := List.exists_cons_of_ne_nil hb
            have : x = (k, b0) := by
              have : (unrun ((k, b) :: us) ++ input.flatten).head? = some (k, b0) := by
                simp [unrun, e]
              rw [this] at hx
              simpa using hx.symm
            rw [this]
            exact fun h => hne h.symm

theorem groupStream_spec (input : List (List (K × β))) (hin : ∀ b ∈ input, b ≠ []) :
    ∃ gs, groupStream input = some gs ∧ flat gs = runs input.flatten := by
  obtain ⟨gs, h1, h2⟩ := pollAll_spec ((input.map (fun b => b.length + 1)).sum + 1) (⟨none, [], []⟩ : Grouper K β) input
    ⟨⟨by simp, by simp⟩, rfl⟩ hin (by simp)
  refine ⟨gs, h1, ?_⟩
  rw [h2]
  simp [Grouper.rows, unrun]

end Runs

/-! ## Interleaving -/

section Interleave
variable {β : Type}

/-- Updates in order, all of them for rows of the fragment: every row gets its update. -/
theorem interleave_spec (ups rows : List (Nat × β)) (hu : ups.Pairwise (fun a b => a.1 < b.1))
    (hr : rows.Pairwise (fun a b => a.1 < b.1)) (hsub : ∀ u ∈ ups, u.1 ∈ rows.map (·.1)) :
    interleave ups rows = (rows.map (fun r => (ups.lookup r.1).getD r.2), []) := by
  induction rows generalizing ups with
  | nil =>
    have : ups = [] := by
      cases ups with
      | nil => rfl
      | cons u us => exact absurd (hsub u List.mem_cons_self) (by simp)
    subst this; rfl
  | cons r rows ih =>
    obtain ⟨a, old⟩ := r
    rw [List.pairwise_cons] at hr
    cases ups with
    | nil =>
      unfold interleave
      rw [ih [] List.Pairwise.nil hr.2 (by simp)]
      simp
    | cons u us =>
      obtain ⟨u, v⟩ := u
      rw [List.pairwise_cons] at hu
      unfold interleave
      have hle : a ≤ u := by
        have := hsub (u, v) List.mem_cons_self
        simp only [List.map_cons, List.mem_cons] at this
        rcases this with h | h
        · omega
        · obtain ⟨x, hx, e⟩ := List.mem_map.mp h
          have := hr.1 x hx
          omega
      by_cases h : u = a
      · rw [if_pos h]
        subst h
        rw [ih us hu.2 hr.2 (by
          intro w hw
          have h1 := hsub w (List.mem_cons_of_mem _ hw)
          have h2 := hu.1 w hw
          simp only [List.map_cons, List.mem_cons] at h1
          rcases h1 with h1 | h1
          · exact absurd h1 (by have h2 : u < w.1 := h2; omega)
          · exact h1)]
        simp only [List.map_cons, List.lookup_cons, BEq.rfl, Option.getD_some, Prod.mk.injEq, List.cons.injEq, true_and,
          and_true]
        apply List.map_congr_left
        intro x hx
        have : u < x.1 := hr.1 x hx
        have hne : (x.1 == u) = false := by simp; omega
        rw [hne]
      · rw [if_neg h]
        rw [ih ((u, v) :: us) (List.pairwise_cons.mpr hu) hr.2 (by
          intro w hw
          have h1 := hsub w hw
          have h2 : u ≤ w.1 := by
            rcases List.mem_cons.mp hw with e | hw
            · rw [e]; exact Nat.le_refl _
            · exact Nat.le_of_lt (hu.1 w hw)
          simp only [List.map_cons, List.mem_cons] at h1
          rcases h1 with h1 | h1
          · exact absurd h1 (by omega)
          · exact h1)]
        have hlk : ((u, v) :: us).lookup a = none := by
          rw [List.lookup_eq_none_iff]
          intro w hw
          rcases List.mem_cons.mp hw with e | hw
          · rw [e]; simpa using fun e => h e.symm
          · have : u < w.1 := hu.1 w hw
            simp; omega
        rw [List.map_cons, hlk]
        rfl

theorem interleave_append (ups r1 r2 : List (Nat × β)) :
    interleave ups (r1 ++ r2) =
      ((interleave ups r1).1 ++ (interleave (interleave ups r1).2 r2).1, (interleave (interleave ups r1).2 r2).2) := by
  induction r1 generalizing ups with
  | nil => simp [interleave]
  | cons r r1 ih =>
    obtain ⟨a, old⟩ := r
    cases ups with
    | nil => simp only [List.cons_append, interleave, ih]
    | cons u us =>
      obtain ⟨u, v⟩ := u
      simp only [List.cons_append, interleave]
      by_cases h : u = a
      · simp only [if_pos h, ih, List.cons_append]
      · simp only [if_neg h, ih, List.cons_append]

theorem interleave_length (ups rows : List (Nat × β)) : (interleave ups rows).1.length = rows.length := by
  induction rows generalizing ups with
  | nil => cases ups <;> simp [interleave]
  | cons r rows ih =>
    obtain ⟨a, old⟩ := r
    cases ups with
    | nil => simp [interleave, ih]
    | cons u us =>
      obtain ⟨u, v⟩ := u
      simp only [interleave]
      by_cases h : u = a
      · simp [if_pos h, ih]
      · simp [if_neg h, ih]

theorem interleaveBatches_flatten (ups : List (Nat × β)) (bs : List (List (Nat × β))) :
    (interleaveBatches ups bs).flatten = (interleave ups bs.flatten).1 ∧
    (interleaveBatches ups bs).map List.length = bs.map List.length := by
  induction bs generalizing ups with
  | nil => cases ups <;> exact ⟨rfl, rfl⟩
  | cons b bs ih =>
    obtain ⟨h1, h2⟩ := ih (interleave ups b).2
    constructor
    · rw [List.flatten_cons, interleave_append]
      simp only [interleaveBatches, List.flatten_cons, h1]
    · simp only [interleaveBatches, List.map_cons, h2, interleave_length]

theorem eq_of_flatten {γ : Type} (l m : List (List γ)) (h1 : l.flatten = m.flatten) (h2 : l.map List.length = m.map List.length) :
    l = m := by
  induction l generalizing m with
  | nil =>
    cases m with
    | nil => rfl
    | cons a m => simp at h2
  | cons a l ih =>
    cases m with
    | nil => simp at h2
    | cons b m =>
      simp only [List.map_cons, List.cons.injEq] at h2
      rw [List.flatten_cons, List.flatten_cons] at h1
      obtain ⟨e1, e2⟩ := List.append_inj h1 h2.1
      rw [e1, ih m e2 h2.2]

/-- Batch by batch: every row gets its update. -/
theorem interleaveBatches_spec (ups : List (Nat × β)) (bs : List (List (Nat × β)))
    (hu : ups.Pairwise (fun a b => a.1 < b.1)) (hr : bs.flatten.Pairwise (fun a b => a.1 < b.1))
    (hsub : ∀ u ∈ ups, u.1 ∈ bs.flatten.map (·.1)) :
    interleaveBatches ups bs = bs.map (List.map (fun r => (ups.lookup r.1).getD r.2)) := by
  obtain ⟨h1, h2⟩ := interleaveBatches_flatten ups bs
  apply eq_of_flatten
  · rw [h1, interleave_spec ups _ hu hr hsub, List.map_flatten]
  · rw [h2, List.map_map]
    apply List.map_congr_left
    intro b _
    simp

theorem updateLoop_map {α γ : Type} (g : α → γ) (r : Restorer) (bs : List (List α)) :
    updateLoop (fun b : List γ => .ok b) r (bs.map (List.map g)) = updateLoop (fun b => .ok (b.map g)) r bs := by
  induction bs generalizing r with
  | nil => rfl
  | cons b bs ih =>
    simp only [List.map_cons, updateLoop, List.length_map, ne_eq, not_true_eq_false, if_false]
    cases Join.restore r (b.map g) with
    | error e => rfl
    | ok x =>
      simp only [ih]

end Interleave

/-! ## Keys of sorted runs -/

section Keys
variable {K β : Type} [DecidableEq K]

theorem runs_keys (l : List (K × β)) : ∀ k, k ∈ (runs l).map (·.1) ↔ k ∈ l.map (·.1) := by
  obtain ⟨⟨h1, _⟩, h2⟩ := runs_ranges l
  intro k
  constructor
  · intro h
    obtain ⟨u, hu, e⟩ := List.mem_map.mp h
    obtain ⟨b, bs, e'⟩ := List.exists_cons_of_ne_nil (h1 u hu)
    rw [← h2]
    apply List.mem_map.mpr
    refine ⟨(u.1, b), ?_, e⟩
    unfold unrun
    rw [List.mem_flatMap]
    exact ⟨u, hu, by rw [e']; simp⟩
  · intro h
    rw [← h2] at h
    obtain ⟨x, hx, e⟩ := List.mem_map.mp h
    unfold unrun at hx
    obtain ⟨u, hu, hx⟩ := List.mem_flatMap.mp hx
    obtain ⟨b, _, e'⟩ := List.mem_map.mp hx
    rw [← e, ← e']
    exact List.mem_map_of_mem hu

theorem runs_sorted (m : K → Nat) (hm : ∀ a b, m a = m b → a = b) (l : List (K × β))
    (h : l.Pairwise (fun a b => m a.1 ≤ m b.1)) : (runs l).Pairwise (fun a b => m a.1 < m b.1) := by
  induction l with
  | nil => exact List.Pairwise.nil
  | cons x l ih =>
    obtain ⟨k, b⟩ := x
    rw [List.pairwise_cons] at h
    have ih := ih h.2
    have hk := runs_keys l
    simp only [runs]
    cases hr : runs l with
    | nil => exact List.pairwise_singleton _ _
    | cons y rest =>
      obtain ⟨k', bs⟩ := y
      rw [hr] at ih hk
      rw [List.pairwise_cons] at ih
      simp only
      by_cases he : k = k'
      · rw [if_pos he, List.pairwise_cons]
        subst he
        exact ⟨ih.1, ih.2⟩
      · rw [if_neg he, List.pairwise_cons, List.pairwise_cons]
        have hlt : m k < m k' := by
          have : k' ∈ l.map (·.1) := (hk k').mp (by simp)
          obtain ⟨x, hx, e⟩ := List.mem_map.mp this
          have h1 := h.1 x hx
          rw [e] at h1
          have : m k ≠ m k' := fun e => he (hm _ _ e)
          have h1 : m k ≤ m k' := h1
          omega
        refine ⟨?_, ih.1, ih.2⟩
        intro a ha
        rcases List.mem_cons.mp ha with e | ha
        · rw [e]; exact hlt
        · have : m k' < m a.1 := ih.1 a ha
          show m k < m a.1
          omega

/-- The run of a key has all the rows of the key. -/
theorem runs_filter (m : K → Nat) (hm : ∀ a b, m a = m b → a = b) (l : List (K × β))
    (h : l.Pairwise (fun a b => m a.1 ≤ m b.1)) (u : K × List β) (hu : u ∈ runs l) :
    u.2 = (l.filter (fun x => decide (x.1 = u.1))).map (·.2) := by
  have hs := runs_sorted m hm l h
  have h2 := (runs_ranges l).2
  rw [← h2]
  generalize runs l = us at hu hs
  clear h2 h
  induction us with
  | nil => cases hu
  | cons v us ih =>
    rw [List.pairwise_cons] at hs
    unfold unrun at ih ⊢
    rw [List.flatMap_cons, List.filter_append, List.map_append]
    rcases List.mem_cons.mp hu with e | hu
    · subst e
      have e1 : (u.2.map (fun b => (u.1, b))).filter (fun x => decide (x.1 = u.1)) = u.2.map (fun b => (u.1, b)) := by
        rw [List.filter_eq_self]; intro x hx; obtain ⟨b, _, e⟩ := List.mem_map.mp hx; simp [← e]
      have e2 : (us.flatMap (fun u => u.2.map (fun b => (u.1, b)))).filter (fun x => decide (x.1 = u.1)) = [] := by
        rw [List.filter_eq_nil_iff]
        intro x hx
        obtain ⟨v, hv, hx⟩ := List.mem_flatMap.mp hx
        obtain ⟨b, _, e⟩ := List.mem_map.mp hx
        have := hs.1 v hv
        simp only [decide_eq_true_eq]
        intro e'
        have e' : x.1 = u.1 := e'
        rw [← e] at e'
        have e' : v.1 = u.1 := e'
        rw [e'] at this
        omega
      rw [e1, e2, List.map_map]
      simp [Function.comp_def]
    · have e1 : (v.2.map (fun b => (v.1, b))).filter (fun x => decide (x.1 = u.1)) = [] := by
        rw [List.filter_eq_nil_iff]
        intro x hx
        obtain ⟨b, _, e⟩ := List.mem_map.mp hx
        have := hs.1 u hu
        simp only [decide_eq_true_eq]
        intro e'
        have e' : x.1 = u.1 := e'
        rw [← e] at e'
        have e' : v.1 = u.1 := e'
        rw [e'] at this
        omega
      rw [e1, List.map_nil, List.nil_append]
      exact ih hu hs.2

end Keys

/-! ## One fragment -/

theorem lookup_of_mem {β : Type} (l : List (Nat × β)) (h : l.Pairwise (fun a b => a.1 < b.1)) (x : Nat × β) (hx : x ∈ l) :
    l.lookup x.1 = some x.2 := by
  induction l with
  | nil => cases hx
  | cons y l ih =>
    rw [List.pairwise_cons] at h
    rcases List.mem_cons.mp hx with e | hx'
    · subst e
      obtain ⟨a, b⟩ := x
      simp [List.lookup_cons]
    · have : y.1 < x.1 := h.1 x hx'
      obtain ⟨a, b⟩ := y
      rw [List.lookup_cons]
      have hne : (x.1 == a) = false := by
        have this : a < x.1 := this
        simp; omega
      rw [hne]
      exact ih h.2 hx'

theorem strict_length (l : List Nat) (b e : Nat) (h : l.Pairwise (· < ·)) (hl : ∀ x ∈ l, b ≤ x ∧ x < e) :
    l.length ≤ e - b := by
  induction l generalizing b with
  | nil => simp
  | cons x l ih =>
    rw [List.pairwise_cons] at h
    have h1 := hl x List.mem_cons_self
    have := ih (x + 1) h.2 (fun y hy => ⟨h.1 y hy, (hl y (List.mem_cons_of_mem _ hy)).2⟩)
    rw [List.length_cons]
    omega

theorem strict_range (l : List Nat) (a n : Nat) (h : l.Pairwise (· < ·)) (hl : ∀ x ∈ l, a ≤ x ∧ x < a + n)
    (hn : l.length = n) : l = List.range' a n := by
  induction l generalizing a n with
  | nil => subst hn; rfl
  | cons x l ih =>
    rw [List.pairwise_cons] at h
    have h1 := hl x List.mem_cons_self
    rw [List.length_cons] at hn
    have h2 := strict_length l (x + 1) (a + n) h.2 (fun y hy => ⟨h.1 y hy, (hl y (List.mem_cons_of_mem _ hy)).2⟩)
    have hxa : x = a := by omega
    subst hxa
    subst hn
    rw [List.range'_succ, ← ih (x + 1) l.length h.2 (fun y hy => ⟨h.1 y hy, by
      have := (hl y (List.mem_cons_of_mem _ hy)).2; omega⟩) rfl]

variable {V : Type}

/-- What the new data file of a fragment should hold at an offset. -/
def wanted (cols : List Nat) (f : Frag (Tuple V)) (ups : List (Nat × Tuple V)) (off : Nat) : Tuple V :=
  (ups.lookup (f.id * 4294967296 + off)).getD (proj cols (f.file off))

theorem live_sorted (f : Frag (Tuple V)) : (liveOffsets f).Pairwise (· < ·) := (List.pairwise_lt_range).filter _

/-- The updater path of `handleFragment`. -/
theorem handle_updater (env : PEnv V) (hsp : Splits env.split) (cols : List Nat) (f : Frag (Tuple V)) (hf : f.OK)
    (ups : List (Nat × Tuple V)) (hu : ups.Pairwise (fun a b => a.1 < b.1))
    (hl : ∀ u ∈ ups, ∃ off ∈ liveOffsets f, u.1 = f.id * 4294967296 + off) (hne : ups.length ≠ f.rows) :
    handleFragment env cols f ups =
      match Join.runUpdater env.split env.legacy ⟨false, true, false⟩ f (fun b => .ok (b.map (fun r =>
        (ups.lookup (idValue r.addr)).getD (proj cols r.data)))) with
      | .ok out => some out
      | .error _ => none := by
  obtain ⟨bs, h1, h2, _⟩ := Join.readAll_batches env.split hsp f hf ⟨false, true, false⟩ rfl
  unfold handleFragment Join.runUpdater
  rw [if_neg hne, h1]
  simp only
  have hfl : (bs.map (List.map (fun r : Row (Tuple V) => (idValue r.addr, proj cols r.data)))).flatten =
      (liveOffsets f).map (fun off => (f.id * 4294967296 + off, proj cols (f.file off))) := by
    rw [← List.map_flatten, h2, List.map_map]
    rfl
  rw [interleaveBatches_spec ups _ hu]
  · rw [List.map_map]
    have : (List.map (fun r : Nat × Tuple V => (ups.lookup r.1).getD r.2)) ∘
        (List.map (fun r : Row (Tuple V) => (idValue r.addr, proj cols r.data))) =
        List.map (fun r : Row (Tuple V) => (ups.lookup (idValue r.addr)).getD (proj cols r.data)) := by
      funext b
      simp
    rw [this, updateLoop_map]
    generalize updateLoop _ _ bs = e
    cases e <;> rfl
  · rw [hfl, List.pairwise_map]
    apply (live_sorted f).imp
    intro a b h
    show f.id * 4294967296 + a < f.id * 4294967296 + b
    omega
  · intro u hmu
    obtain ⟨off, ho, e⟩ := hl u hmu
    rw [hfl, List.map_map, e]
    exact List.mem_map.mpr ⟨off, ho, rfl⟩

theorem handle_spec (env : PEnv V) (hsp : Splits env.split) (cols : List Nat) (f : Frag (Tuple V)) (hf : f.OK)
    (ups : List (Nat × Tuple V)) (hu : ups.Pairwise (fun a b => a.1 < b.1))
    (hl : ∀ u ∈ ups, ∃ off ∈ liveOffsets f, u.1 = f.id * 4294967296 + off) (out : List (Tuple V))
    (h : handleFragment env cols f ups = some out) :
    ∀ off ∈ liveOffsets f, out[off]? = some (wanted cols f ups off) := by
  by_cases hn : ups.length = f.rows
  · unfold handleFragment at h
    rw [if_pos hn] at h
    cases h
    intro off ho
    have hlt := Update.liveOffsets_lt ho
    have hr : ups.map (·.1) = List.range' (f.id * 4294967296) f.rows := by
      apply strict_range
      · rw [List.pairwise_map]; exact hu
      · intro x hx
        obtain ⟨u, hmu, e⟩ := List.mem_map.mp hx
        obtain ⟨o, ho, e'⟩ := hl u hmu
        have := Update.liveOffsets_lt ho
        omega
      · rw [List.length_map, hn]
    have hi : off < ups.length := by omega
    have hk : ups[off].1 = f.id * 4294967296 + off := by
      have h1 : (ups.map (·.1))[off]? = (List.range' (f.id * 4294967296) f.rows)[off]? := by rw [hr]
      rw [List.getElem?_map, List.getElem?_eq_getElem hi, List.getElem?_range' hlt] at h1
      simp at h1
      omega
    have := lookup_of_mem ups hu ups[off] (List.getElem_mem hi)
    rw [List.getElem?_map, List.getElem?_eq_getElem hi]
    unfold wanted
    rw [← hk, this]
    rfl
  · rw [handle_updater env hsp cols f hf ups hu hl hn] at h
    cases hrun : Join.runUpdater env.split env.legacy ⟨false, true, false⟩ f (fun b => .ok (b.map (fun r =>
        (ups.lookup (idValue r.addr)).getD (proj cols r.data)))) with
    | error e => rw [hrun] at h; cases h
    | ok o =>
      rw [hrun] at h
      cases h
      obtain ⟨_, ha⟩ := Join.C58_aligned_partial env.split env.legacy f ⟨false, true, false⟩ _
        (fun r => (ups.lookup (idValue r.addr)).getD (proj cols r.data)) hsp hf rfl (by intro b v h; cases h; rfl) _ hrun
      intro off ho
      have := ha off (Update.liveOffsets_lt ho) (List.mem_filter.mp ho).2
      rw [this]
      rfl

/-- The first batch of a fragment has a live row. -/
def FirstLive (env : PEnv V) (f : Frag (Tuple V)) : Prop :=
  ∃ s ss, Join.batchSizes env.split f = s :: ss ∧ ∃ off, off < s ∧ live f.dv off = true

theorem handle_ok (env : PEnv V) (hsp : Splits env.split) (hv2 : env.legacy = none) (cols : List Nat)
    (f : Frag (Tuple V)) (hf : f.OK)
    (ups : List (Nat × Tuple V)) (hu : ups.Pairwise (fun a b => a.1 < b.1))
    (hl : ∀ u ∈ ups, ∃ off ∈ liveOffsets f, u.1 = f.id * 4294967296 + off) (hfl : FirstLive env f) :
    ∃ out, handleFragment env cols f ups = some out := by
  by_cases hn : ups.length = f.rows
  · unfold handleFragment
    rw [if_pos hn]
    exact ⟨_, rfl⟩
  · rw [handle_updater env hsp cols f hf ups hu hl hn, hv2]
    obtain ⟨s, ss, h1, off, h2, h3⟩ := hfl
    obtain ⟨out, h, _⟩ := (Join.C58_v2_partial env.split f ⟨false, true, false⟩ (fun b => .ok (b.map (fun r =>
        (ups.lookup (idValue r.addr)).getD (proj cols r.data)))) _ hsp hf rfl (fun b _ => rfl) s ss h1 (by omega)).1
        ⟨off, h2, h3⟩
    rw [h]
    exact ⟨_, rfl⟩

/-! ## All groups -/

theorem handleGroups_spec (env : PEnv V) (cols : List Nat) (frags : List (Frag (Tuple V)))
    (gs : List (Option Nat × List (List (Nat × Tuple V)))) (r : List (Frag (Tuple V)) × List (Tuple V))
    (h : handleGroups env cols frags gs = some r) :
    (∀ u ∈ r.1, ∃ id bs f out, (some id, bs) ∈ gs ∧ frags.find? (fun f => f.id == id) = some f ∧
      handleFragment env cols f bs.flatten = some out ∧ u = withColumns cols f out) ∧
    (∀ id bs, (some id, bs) ∈ gs → ∃ f out, frags.find? (fun f => f.id == id) = some f ∧
      handleFragment env cols f bs.flatten = some out ∧ withColumns cols f out ∈ r.1) ∧
    r.2 = ((unrun (flat gs)).filter (fun x => decide (x.1 = none))).map (fun x => x.2.2) := by
  induction gs generalizing r with
  | nil =>
    simp only [handleGroups, Option.some.injEq] at h
    subst h
    simp [flat, unrun]
  | cons g gs ih =>
    unfold handleGroups at h
    cases ha : handleGroup env cols frags g with
    | none => rw [ha] at h; cases h
    | some a =>
      cases hb : handleGroups env cols frags gs with
      | none => rw [ha, hb] at h; cases h
      | some b =>
        rw [ha, hb] at h
        simp only [Option.some.injEq] at h
        subst h
        obtain ⟨i1, i2, i3⟩ := ih b hb
        obtain ⟨k, bs⟩ := g
        unfold handleGroup at ha
        simp only at ha
        have hun : unrun (flat ((k, bs) :: gs)) = bs.flatten.map (fun x => (k, x)) ++ unrun (flat gs) := by
          simp [unrun, flat]
        rw [hun, List.filter_append, List.map_append, ← i3]
        cases k with
        | none =>
          simp only [Option.some.injEq] at ha
          subst ha
          refine ⟨?_, ?_, ?_⟩
          · intro u hu
            obtain ⟨id, bs', f, out, h1, h2⟩ := i1 u (by simpa using hu)
            exact ⟨id, bs', f, out, List.mem_cons_of_mem _ h1, h2⟩
          · intro id bs' hm
            rcases List.mem_cons.mp hm with e | hm
            · cases e
            · obtain ⟨f, out, h1, h2, h3⟩ := i2 id bs' hm
              exact ⟨f, out, h1, h2, by simpa using h3⟩
          · simp only
            congr 1
            rw [List.filter_eq_self.mpr, List.map_map]
            · rfl
            · intro x hx; obtain ⟨y, _, e⟩ := List.mem_map.mp hx; simp [← e]
        | some id =>
          simp only at ha
          cases hfi : frags.find? (fun f => f.id == id) with
          | none => rw [hfi] at ha; cases ha
          | some f =>
            rw [hfi] at ha
            simp only at ha
            cases hh : handleFragment env cols f bs.flatten with
            | none => rw [hh] at ha; cases ha
            | some out =>
              rw [hh] at ha
              simp only [Option.some.injEq] at ha
              subst ha
              refine ⟨?_, ?_, ?_⟩
              · intro u hu
                rcases List.mem_cons.mp hu with e | hu
                · exact ⟨id, bs, f, out, List.mem_cons_self, hfi, hh, e⟩
                · obtain ⟨id, bs', f, out, h1, h2⟩ := i1 u hu
                  exact ⟨id, bs', f, out, List.mem_cons_of_mem _ h1, h2⟩
              · intro id' bs' hm
                rcases List.mem_cons.mp hm with e | hm
                · simp only [Prod.mk.injEq, Option.some.injEq] at e
                  rw [e.1, e.2]
                  exact ⟨f, out, hfi, hh, List.mem_cons_self⟩
                · obtain ⟨f, out, h1, h2, h3⟩ := i2 id' bs' hm
                  exact ⟨f, out, h1, h2, List.mem_cons_of_mem _ h3⟩
              · have : (bs.flatten.map (fun x => (some id, x))).filter (fun x => decide (x.1 = none)) = [] := by
                  rw [List.filter_eq_nil_iff]
                  intro x hx
                  obtain ⟨y, _, e⟩ := List.mem_map.mp hx
                  simp [← e]
                rw [this]
                rfl

theorem handleGroups_ok (env : PEnv V) (cols : List Nat) (frags : List (Frag (Tuple V)))
    (gs : List (Option Nat × List (List (Nat × Tuple V))))
    (h : ∀ id bs, (some id, bs) ∈ gs → ∃ f out, frags.find? (fun f => f.id == id) = some f ∧
      handleFragment env cols f bs.flatten = some out) :
    ∃ r, handleGroups env cols frags gs = some r := by
  induction gs with
  | nil => exact ⟨_, rfl⟩
  | cons g gs ih =>
    obtain ⟨b, hb⟩ := ih (fun id bs hm => h id bs (List.mem_cons_of_mem _ hm))
    obtain ⟨k, bs⟩ := g
    unfold handleGroups
    rw [hb]
    cases k with
    | none => exact ⟨_, rfl⟩
    | some id =>
      obtain ⟨f, out, h1, h2⟩ := h id bs List.mem_cons_self
      unfold handleGroup
      simp only [h1, h2]
      exact ⟨_, rfl⟩

end Verif.Merge
