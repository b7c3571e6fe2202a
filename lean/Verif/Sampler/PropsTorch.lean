import Verif.Sampler.PropsSample
import Verif.Sampler.Cache

/-!
# C56, C57: batches for PyTorch
-/
namespace Verif.Sampler
open Verif

/-! ## C56: buffering -/

theorem bufferBatches_flatten {α : Type} (size : Nat) (buffer bs : List (List α)) :
    (bufferBatches size buffer bs).flatten = buffer.flatten ++ bs.flatten := by
  induction bs generalizing buffer with
  | nil => unfold bufferBatches; split <;> simp_all
  | cons b bs ih =>
    unfold bufferBatches
    split
    · rw [List.flatten_cons, ih]; simp
    · rw [ih]; simp

theorem bufferBatches_size {α : Type} (size : Nat) (all : List (List α)) (buffer bs : List (List α))
    (hb : buffer.flatten.length ≤ size ∨ buffer.flatten ∈ all) (hs : ∀ b ∈ bs, b ∈ all) :
    ∀ o ∈ bufferBatches size buffer bs, o.length ≤ size ∨ o ∈ all := by
  induction bs generalizing buffer with
  | nil =>
    unfold bufferBatches
    split
    · intro o h; cases h
    · intro o h; rw [List.mem_singleton.mp h]; exact hb
  | cons b bs ih =>
    have hb' := hs b List.mem_cons_self
    unfold bufferBatches
    split
    · intro o h
      rcases List.mem_cons.mp h with e | h
      · rw [e]; exact hb
      · exact ih [b] (Or.inr (by simpa using hb')) (fun x hx => hs x (List.mem_cons_of_mem _ hx)) o h
    · rename_i hc
      apply ih _ _ (fun x hx => hs x (List.mem_cons_of_mem _ hx))
      simp only [List.flatten_append, List.flatten_cons, List.flatten_nil, List.append_nil, List.length_append]
      by_cases h0 : buffer.flatten.length > 0
      · left
        have : ¬ (buffer.flatten.length + b.length > size) := fun h => hc ⟨h0, h⟩
        omega
      · have e : buffer.flatten = [] := List.length_eq_zero_iff.mp (by omega)
        rw [e, List.nil_append]
        exact Or.inr hb'

/-- **C56.** The batches of the PyTorch dataset have the rows of the stream in order; a batch with more than
`batch_size` rows is one of the stream. -/
theorem C56_buffer {α : Type} (size : Nat) (stream : List (List α)) :
    (bufferBatches size [] stream).flatten = stream.flatten ∧
    ∀ o ∈ bufferBatches size [] stream, o.length ≤ size ∨ o ∈ stream :=
  ⟨by rw [bufferBatches_flatten]; rfl, bufferBatches_size size stream [] stream (Or.inl (Nat.zero_le _)) (fun _ h => h)⟩

example : bufferBatches 4 [] [[1], [2, 3], [4, 5], [6, 7, 8, 9, 10], [], [11]] = [[1, 2, 3], [4, 5], [6, 7, 8, 9, 10], [11]] := by
  decide

/-- **C56 (no needless splits).** Two consecutive batches do not fit into one: the rows of a batch and of the first
batch of the stream in the next one are more than `batch_size`.  Stated for streams of single rows, where all
batches but the last are full. -/
theorem C56_full {α : Type} (size : Nat) (hs : 0 < size) (stream : List α) :
    ∀ full last, bufferBatches size [] (stream.map (fun x => [x])) = full ++ [last] →
      (∀ o ∈ full, o.length = size) ∧ last.length ≤ size := by
  have key : ∀ (rows : List α) (buffer : List (List α)), buffer.flatten.length ≤ size →
      ∀ full last, bufferBatches size buffer (rows.map (fun x => [x])) = full ++ [last] →
      (∀ o ∈ full, o.length = size) ∧ last.length ≤ size := by
    intro rows
    induction rows with
    | nil =>
      intro buffer hb full last h
      rw [List.map_nil] at h
      unfold bufferBatches at h
      split at h
      · exact absurd h.symm (by simp)
      · have h' : [] ++ [buffer.flatten] = full ++ [last] := h
        obtain ⟨h1, h2⟩ := List.append_inj' h' rfl
        cases h2
        rw [← h1]
        exact ⟨by intro o ho; (cases ho), hb⟩
    | cons a rows ih =>
      intro buffer hb full last h
      rw [List.map_cons] at h
      unfold bufferBatches at h
      split at h
      · rename_i hc
        cases full with
        | nil =>
          rw [List.nil_append] at h
          have h2 := (List.cons.inj h).2
          have h3 := congrArg List.flatten h2
          rw [bufferBatches_flatten] at h3
          simp at h3
        | cons f full =>
          obtain ⟨h1, h2⟩ := List.cons.inj (show buffer.flatten :: _ = f :: (full ++ [last]) from h)
          obtain ⟨i1, i2⟩ := ih [[a]] (by simp; omega) full last h2
          refine ⟨?_, i2⟩
          intro o ho
          rcases List.mem_cons.mp ho with e | ho
          · rw [e, ← h1]
            have := hc.2
            simp only [List.length_singleton] at this
            omega
          · exact i1 o ho
      · rename_i hc
        refine ih (buffer ++ [[a]]) ?_ full last h
        simp only [List.flatten_append, List.flatten_cons, List.flatten_nil, List.append_nil, List.length_append,
          List.length_singleton] at hc ⊢
        by_cases h0 : buffer.flatten.length > 0
        · have : ¬ (buffer.flatten.length + 1 > size) := fun h => hc ⟨h0, h⟩
          omega
        · omega
  exact key stream [] (Nat.zero_le _)

example : bufferBatches 2 [] ([1, 2, 3, 4, 5].map (fun x => [x])) = [[1, 2], [3, 4]] ++ [[5]] := by decide

/-- **C56 (tensors).** The items of a `LanceTensorDataset` are the rows of the tensor, in order, each once; an index
from the length on ends the iteration; no item has more than `batch_size` rows. -/
theorem C56_tensor (rows bs : Nat) (hb : 0 < bs) :
    ((List.range (tensorLen rows bs)).filterMap (tensorItem rows bs)).flatMap (fun r => List.range' r.1 (r.2 - r.1)) =
      List.range rows ∧
    (∀ idx, tensorItem rows bs idx = none ↔ tensorLen rows bs ≤ idx) ∧
    ∀ idx r, tensorItem rows bs idx = some r → r.1 < r.2 ∧ r.2 ≤ rows ∧ r.2 - r.1 ≤ bs := by
  have hitem : ∀ idx, idx < tensorLen rows bs → tensorItem rows bs idx = some (idx * bs, min ((idx + 1) * bs) rows) := by
    intro idx h
    unfold tensorItem
    rw [if_neg (by omega)]
  refine ⟨?_, ?_, ?_⟩
  · have key : ∀ k, k ≤ tensorLen rows bs →
        ((List.range k).filterMap (tensorItem rows bs)).flatMap (fun r => List.range' r.1 (r.2 - r.1)) =
          List.range (min (k * bs) rows) := by
      intro k
      induction k with
      | zero => intro _; simp
      | succ k ih =>
        intro hk
        have hlt : k * bs < rows := by
          have := (Nat.le_div_iff_mul_le hb).mp (show k + 1 ≤ _ from hk)
          rw [Nat.add_mul] at this
          omega
        rw [List.range_succ, List.filterMap_append, List.flatMap_append, ih (by omega)]
        simp only [List.filterMap_cons, List.filterMap_nil, hitem k (by omega), List.flatMap_cons, List.flatMap_nil,
          List.append_nil]
        rw [Nat.min_eq_left (by omega : k * bs ≤ rows), List.range_eq_range', List.range_eq_range']
        have h1 : k * bs ≤ min ((k + 1) * bs) rows := by rw [Nat.add_mul]; omega
        have := List.range'_append_1 (s := 0) (m := k * bs) (n := min ((k + 1) * bs) rows - k * bs)
        rw [Nat.zero_add] at this
        rw [this]
        congr 1
        omega
    rw [key _ (Nat.le_refl _)]
    congr 1
    have h1 : rows ≤ tensorLen rows bs * bs := by
      have := Nat.lt_div_mul_add (a := rows + (bs - 1)) hb
      unfold tensorLen
      omega
    omega
  · intro idx
    unfold tensorItem
    split
    · simp; omega
    · simp; omega
  · intro idx r h
    have hlt : idx < tensorLen rows bs := by
      false_or_by_contra
      have h2 : tensorItem rows bs idx = none := by unfold tensorItem; rw [if_pos (by omega)]
      rw [h2] at h
      cases h
    rw [hitem idx hlt] at h
    cases h
    have := (Nat.le_div_iff_mul_le hb).mp (show idx + 1 ≤ _ from hlt)
    simp only
    rw [Nat.add_mul] at *
    omega

example : (List.range 4).map (tensorItem 7 3) = [some (0, 3), some (3, 6), some (6, 7), none] := by decide

/-! ## C57: cached iteration -/

/-- Batches yielded so far. -/
def Iter.yielded {α : Type} : Iter α → List α
  | .fresh => []
  | .first ys => ys
  | .reading ys _ => ys
  | .done ys => ys
  | .failed ys => ys

def Iter.isDone {α : Type} : Iter α → Bool
  | .done _ => true
  | _ => false

/-- What holds after every history, for a stream of batches `all`. -/
structure CacheInv {α : Type} (all : List α) (s : Cached α) : Prop where
  /-- nothing read, no cache file -/
  none : s.cache = none → s.stream = all ∧ s.finished = false
  some : ∀ file, s.cache = some file → file ≠ [] ∧ file ++ s.stream = all
  fin : s.finished = true → s.cache = Option.some all
  first : ∀ i ys, s.iters i = .first ys → s.finished = false ∧ s.cache = Option.some ys
  one : ∀ i j ys zs, s.iters i = .first ys → s.iters j = .first zs → i = j
  reading : ∀ i ys rest, s.iters i = .reading ys rest → s.finished = true ∧ ys ++ rest = all
  done : ∀ i ys, s.iters i = .done ys → s.finished = true ∧ ys = all
  failed : ∀ i ys, s.iters i = .failed ys → ys = []

theorem CacheInv.init {α : Type} (all : List α) : CacheInv all (Cached.init all) where
  none _ := ⟨rfl, rfl⟩
  some _ h := by cases h
  fin h := by cases h
  first _ _ h := by cases h
  one _ _ _ _ h := by cases h
  reading _ _ _ h := by cases h
  done _ _ h := by cases h
  failed _ _ h := by cases h

theorem updIter_eq {α : Type} {f : Nat → Iter α} {i j : Nat} {x y : Iter α} (h : updIter f i x j = y) :
    (j = i ∧ x = y) ∨ (j ≠ i ∧ f j = y) := by
  unfold updIter at h
  split at h
  · exact Or.inl ⟨by assumption, h⟩
  · exact Or.inr ⟨by assumption, h⟩

theorem CacheInv.step_read {α : Type} {all : List α} {s : Cached α} (h : CacheInv all s) (i : Nat) (ys rest : List α)
    (hf : s.finished = true) (hr : ys ++ rest = all) : CacheInv all (nextRead s i ys rest) := by
  have hne : ∀ ys, s.iters i ≠ .first ys := by
    intro zs hz
    have := (h.first i zs hz).1
    rw [hf] at this
    cases this
  cases rest with
  | nil =>
    refine ⟨h.none, h.some, h.fin, ?_, ?_, ?_, ?_, ?_⟩
    · intro j zs hj
      rcases updIter_eq hj with ⟨_, e⟩ | ⟨_, e⟩
      · cases e
      · exact h.first j zs e
    · intro j k zs ws hj hk
      rcases updIter_eq hj with ⟨_, e⟩ | ⟨_, e⟩
      · cases e
      · rcases updIter_eq hk with ⟨_, e'⟩ | ⟨_, e'⟩
        · cases e'
        · exact h.one j k zs ws e e'
    · intro j zs r hj
      rcases updIter_eq hj with ⟨_, e⟩ | ⟨_, e⟩
      · cases e
      · exact h.reading j zs r e
    · intro j zs hj
      rcases updIter_eq hj with ⟨_, e⟩ | ⟨_, e⟩
      · cases e; exact ⟨hf, by simpa using hr⟩
      · exact h.done j zs e
    · intro j zs hj
      rcases updIter_eq hj with ⟨_, e⟩ | ⟨_, e⟩
      · cases e
      · exact h.failed j zs e
  | cons b rest =>
    refine ⟨h.none, h.some, h.fin, ?_, ?_, ?_, ?_, ?_⟩
    · intro j zs hj
      rcases updIter_eq hj with ⟨_, e⟩ | ⟨_, e⟩
      · cases e
      · exact h.first j zs e
    · intro j k zs ws hj hk
      rcases updIter_eq hj with ⟨_, e⟩ | ⟨_, e⟩
      · cases e
      · rcases updIter_eq hk with ⟨_, e'⟩ | ⟨_, e'⟩
        · cases e'
        · exact h.one j k zs ws e e'
    · intro j zs r hj
      rcases updIter_eq hj with ⟨_, e⟩ | ⟨_, e⟩
      · cases e; exact ⟨hf, by simpa using hr⟩
      · exact h.reading j zs r e
    · intro j zs hj
      rcases updIter_eq hj with ⟨_, e⟩ | ⟨_, e⟩
      · cases e
      · exact h.done j zs e
    · intro j zs hj
      rcases updIter_eq hj with ⟨_, e⟩ | ⟨_, e⟩
      · cases e
      · exact h.failed j zs e

theorem CacheInv.step_first {α : Type} {all : List α} {s : Cached α} (h : CacheInv all s) (i : Nat) (ys : List α)
    (hy : (ys = [] ∧ s.cache = Option.none) ∨ (ys ≠ [] ∧ s.iters i = .first ys)) : CacheInv all (nextFirst s i ys) := by
  -- nobody else reads the stream
  have hother : ∀ j zs, s.iters j = .first zs → j = i := by
    intro j zs hj
    rcases hy with ⟨_, e⟩ | ⟨_, e⟩
    · have := (h.first j zs hj).2
      rw [e] at this
      cases this
    · exact h.one j i zs ys hj e
  have hnf : s.finished = false := by
    rcases hy with ⟨_, e⟩ | ⟨_, e⟩
    · exact (h.none e).2
    · exact (h.first i ys e).1
  unfold nextFirst
  cases hs : s.stream with
  | nil =>
    simp only
    split
    · rename_i h0
      refine ⟨?_, ?_, h.fin, ?_, ?_, ?_, ?_, ?_⟩
      · intro hc; exact ⟨hs ▸ (h.none hc).1, hnf⟩
      · intro file hc; have := h.some file hc; rw [hs] at this; exact this
      · intro j zs hj
        rcases updIter_eq hj with ⟨_, e⟩ | ⟨_, e⟩
        · cases e
        · exact h.first j zs e
      · intro j k zs ws hj hk
        rcases updIter_eq hj with ⟨_, e⟩ | ⟨_, e⟩
        · cases e
        · rcases updIter_eq hk with ⟨_, e'⟩ | ⟨_, e'⟩
          · cases e'
          · exact h.one j k zs ws e e'
      · intro j zs r hj
        rcases updIter_eq hj with ⟨_, e⟩ | ⟨_, e⟩
        · cases e
        · exact h.reading j zs r e
      · intro j zs hj
        rcases updIter_eq hj with ⟨_, e⟩ | ⟨_, e⟩
        · cases e
        · exact h.done j zs e
      · intro j zs hj
        rcases updIter_eq hj with ⟨_, e⟩ | ⟨_, e⟩
        · cases e; exact h0
        · exact h.failed j zs e
    · rename_i h0
      have hi : s.iters i = .first ys := by
        rcases hy with ⟨e, _⟩ | ⟨_, e⟩
        · exact absurd e h0
        · exact e
      have hc := (h.first i ys hi).2
      have hall : ys = all := by
        have := (h.some ys hc).2
        rw [hs, List.append_nil] at this
        exact this
      refine ⟨?_, ?_, ?_, ?_, ?_, ?_, ?_, ?_⟩
      · intro hc'
        have hc'' : s.cache = Option.none := hc'
        rw [hc] at hc''
        cases hc''
      · intro file hc'; have := h.some file hc'; rw [hs] at this; exact this
      · intro _; rw [← hall]; exact hc
      · intro j zs hj
        rcases updIter_eq hj with ⟨_, e⟩ | ⟨hne, e⟩
        · cases e
        · exact absurd (hother j zs e) hne
      · intro j k zs ws hj hk
        rcases updIter_eq hj with ⟨_, e⟩ | ⟨_, e⟩
        · cases e
        · rcases updIter_eq hk with ⟨_, e'⟩ | ⟨_, e'⟩
          · cases e'
          · exact h.one j k zs ws e e'
      · intro j zs r hj
        rcases updIter_eq hj with ⟨_, e⟩ | ⟨_, e⟩
        · cases e
        · exact ⟨rfl, (h.reading j zs r e).2⟩
      · intro j zs hj
        rcases updIter_eq hj with ⟨_, e⟩ | ⟨_, e⟩
        · cases e; exact ⟨rfl, hall⟩
        · exact ⟨rfl, (h.done j zs e).2⟩
      · intro j zs hj
        rcases updIter_eq hj with ⟨_, e⟩ | ⟨_, e⟩
        · cases e
        · exact h.failed j zs e
  | cons b rest =>
    simp only
    have hfile : (if ys = [] then [] else s.cache.getD []) ++ [b] = ys ++ [b] := by
      rcases hy with ⟨e, _⟩ | ⟨e, hi⟩
      · rw [if_pos e, e]
      · rw [if_neg e, (h.first i ys hi).2]; rfl
    have hall : (ys ++ [b]) ++ rest = all := by
      rcases hy with ⟨e, hc⟩ | ⟨e, hi⟩
      · rw [e, ← (h.none hc).1, hs]; rfl
      · have := (h.some ys (h.first i ys hi).2).2
        rw [hs] at this
        simpa using this
    rw [hfile]
    refine ⟨?_, ?_, ?_, ?_, ?_, ?_, ?_, ?_⟩
    · intro hc; cases hc
    · intro file hc; cases hc; exact ⟨by simp, hall⟩
    · intro hf
      have hf' : s.finished = true := hf
      rw [hnf] at hf'
      cases hf'
    · intro j zs hj
      rcases updIter_eq hj with ⟨_, e⟩ | ⟨hne, e⟩
      · cases e; exact ⟨hnf, rfl⟩
      · exact absurd (hother j zs e) hne
    · intro j k zs ws hj hk
      rcases updIter_eq hj with ⟨e1, _⟩ | ⟨hne, e⟩
      · rcases updIter_eq hk with ⟨e2, _⟩ | ⟨hne, e'⟩
        · rw [e1, e2]
        · exact absurd (hother k ws e') hne
      · exact absurd (hother j zs e) hne
    · intro j zs r hj
      rcases updIter_eq hj with ⟨_, e⟩ | ⟨_, e⟩
      · cases e
      · exact h.reading j zs r e
    · intro j zs hj
      rcases updIter_eq hj with ⟨_, e⟩ | ⟨_, e⟩
      · cases e
      · exact h.done j zs e
    · intro j zs hj
      rcases updIter_eq hj with ⟨_, e⟩ | ⟨_, e⟩
      · cases e
      · exact h.failed j zs e

theorem CacheInv.next {α : Type} {all : List α} {s : Cached α} (h : CacheInv all s) (i : Nat) :
    CacheInv all (s.next i) := by
  unfold Cached.next
  cases hi : s.iters i with
  | fresh =>
    cases hc : s.cache with
    | none => exact h.step_first i [] (Or.inl ⟨rfl, hc⟩)
    | some file =>
      simp only
      split
      · rename_i hf
        have := h.fin hf
        rw [hc] at this
        cases this
        exact h.step_read i [] all hf rfl
      · refine ⟨fun e => by (cases e), fun f e => h.some f (hc.trans e), fun e => hc ▸ h.fin e, ?_, ?_, ?_, ?_, ?_⟩
        · intro j zs hj
          rcases updIter_eq hj with ⟨_, e⟩ | ⟨_, e⟩
          · cases e
          · have := h.first j zs e
            rw [hc] at this
            exact this
        · intro j k zs ws hj hk
          rcases updIter_eq hj with ⟨_, e⟩ | ⟨_, e⟩
          · cases e
          · rcases updIter_eq hk with ⟨_, e'⟩ | ⟨_, e'⟩
            · cases e'
            · exact h.one j k zs ws e e'
        · intro j zs r hj
          rcases updIter_eq hj with ⟨_, e⟩ | ⟨_, e⟩
          · cases e
          · exact h.reading j zs r e
        · intro j zs hj
          rcases updIter_eq hj with ⟨_, e⟩ | ⟨_, e⟩
          · cases e
          · exact h.done j zs e
        · intro j zs hj
          rcases updIter_eq hj with ⟨_, e⟩ | ⟨_, e⟩
          · cases e; rfl
          · exact h.failed j zs e
  | first ys =>
    have hc := (h.first i ys hi).2
    exact h.step_first i ys (Or.inr ⟨(h.some ys hc).1, hi⟩)
  | reading ys rest =>
    obtain ⟨h1, h2⟩ := h.reading i ys rest hi
    exact h.step_read i ys rest h1 h2
  | done ys => exact h
  | failed ys => exact h

theorem CacheInv.run {α : Type} {all : List α} {s : Cached α} (h : CacheInv all s) (calls : List Nat) :
    CacheInv all (s.run calls) := by
  induction calls generalizing s with
  | nil => exact h
  | cons i calls ih => exact ih (h.next i)

/-- **C57.** However many iterators are opened over a cached dataset and however their calls interleave, every
iterator has at any time yielded a prefix of the original stream, and all of it if it ended without an exception. -/
theorem C57_cached {α : Type} (all : List α) (calls : List Nat) (i : Nat) :
    ((Cached.init all).run calls |>.iters i).yielded <+: all ∧
    (((Cached.init all).run calls |>.iters i).isDone = true → ((Cached.init all).run calls |>.iters i).yielded = all) := by
  have h := (CacheInv.init all).run calls
  generalize (Cached.init all).run calls = s at h
  cases hi : s.iters i with
  | fresh => exact ⟨List.nil_prefix, fun e => by cases e⟩
  | first ys =>
    refine ⟨?_, fun e => by cases e⟩
    obtain ⟨_, h2⟩ := h.first i ys hi
    exact ⟨s.stream, (h.some ys h2).2⟩
  | reading ys rest =>
    obtain ⟨_, h2⟩ := h.reading i ys rest hi
    exact ⟨⟨rest, h2⟩, fun e => by cases e⟩
  | done ys =>
    obtain ⟨_, h2⟩ := h.done i ys hi
    rw [h2]
    exact ⟨List.prefix_rfl, fun _ => rfl⟩
  | failed ys =>
    rw [h.failed i ys hi]
    exact ⟨List.nil_prefix, fun e => by cases e⟩

example : ((Cached.init [1, 2, 3]).run [0, 0, 0, 0, 1, 1, 2, 1, 1]).iters 1 = .done [1, 2, 3] := by rfl
example : ((Cached.init [1, 2, 3]).run [0, 0, 1]).iters 1 = .failed [] := by rfl

/-- Iteration to the end: `next` once for each batch and once more. -/
def toEnd {α : Type} (all : List α) (i : Nat) : List Nat := List.replicate (all.length + 1) i

theorem nextRead_finished {α : Type} (s : Cached α) (i : Nat) (ys rest : List α) :
    (nextRead s i ys rest).finished = s.finished := by cases rest <;> rfl

theorem nextRead_run {α : Type} (i : Nat) (rest ys : List α) (s : Cached α) (hi : s.iters i = .reading ys rest) :
    (s.run (List.replicate (rest.length + 1) i)).iters i = .done (ys ++ rest) := by
  induction rest generalizing ys s with
  | nil =>
    show (s.next i).iters i = _
    unfold Cached.next
    rw [hi]
    simp [nextRead, updIter]
  | cons b rest ih =>
    show ((s.next i).run (List.replicate (rest.length + 1) i)).iters i = _
    rw [ih (ys ++ [b]) (s.next i) (by unfold Cached.next; rw [hi]; simp [nextRead, updIter])]
    simp

theorem nextFirst_run {α : Type} (i : Nat) (rest ys : List α) (s : Cached α) (hi : s.iters i = .first ys)
    (hs : s.stream = rest) (hy : ys ≠ []) :
    (s.run (List.replicate (rest.length + 1) i)).iters i = .done (ys ++ rest) ∧
    (s.run (List.replicate (rest.length + 1) i)).finished = true := by
  induction rest generalizing ys s with
  | nil =>
    show (s.next i).iters i = _ ∧ (s.next i).finished = _
    unfold Cached.next
    rw [hi]
    simp [nextFirst, hs, hy, updIter]
  | cons b rest ih =>
    show ((s.next i).run (List.replicate (rest.length + 1) i)).iters i = _ ∧
      ((s.next i).run (List.replicate (rest.length + 1) i)).finished = _
    have := ih (ys ++ [b]) (s.next i) (by unfold Cached.next; rw [hi]; simp [nextFirst, hs, updIter])
      (by unfold Cached.next; rw [hi]; simp [nextFirst, hs]) (by simp)
    simpa using this

/-- C57, epochs in full: every epoch yields the stream. -/
def C57_epochs_statement : Prop :=
  ∀ (all : List Nat) (k : Nat),
    let s := (Cached.init all).run ((List.range k).flatMap (toEnd all))
    (s.run (toEnd all k)).iters k = .done all

/-- Of an empty stream every epoch raises an exception. -/
theorem C57_epochs_violated : ¬ C57_epochs_statement := by
  intro h
  have := h [] 0
  cases this

/-- **C57 (epochs; partial).** If the stream is not empty, every epoch yields the stream: one iterator after the other,
each to its end. -/
theorem C57_epochs_partial {α : Type} (all : List α) (hne : all ≠ []) (k : Nat) :
    let s := (Cached.init all).run ((List.range k).flatMap (toEnd all))
    (s.run (toEnd all k)).iters k = .done all := by
  have key : ∀ k, let s := (Cached.init all).run ((List.range k).flatMap (toEnd all))
      CacheInv all s ∧ (∀ i, k ≤ i → s.iters i = .fresh) ∧ (0 < k → s.finished = true) ∧ (k = 0 → s = Cached.init all) := by
    intro k
    induction k with
    | zero => exact ⟨CacheInv.init all, fun _ _ => rfl, fun h => by omega, fun _ => rfl⟩
    | succ k ih =>
      obtain ⟨h1, h2, h3, h4⟩ := ih
      simp only at h1 h2 h3 h4 ⊢
      rw [List.range_succ, List.flatMap_append, List.flatMap_cons, List.flatMap_nil, List.append_nil]
      have er : ∀ (s : Cached α) a b, s.run (a ++ b) = (s.run a).run b := by
        intro s a b; unfold Cached.run; rw [List.foldl_append]
      rw [er]
      generalize (Cached.init all).run ((List.range k).flatMap (toEnd all)) = s at *
      have hframe : ∀ (n : Nat) (s : Cached α) (i : Nat), i ≠ k → (s.run (List.replicate n k)).iters i = s.iters i := by
        intro n
        induction n with
        | zero => intro s i _; rfl
        | succ n ihn =>
          intro s i hi
          show ((s.next k).run (List.replicate n k)).iters i = _
          rw [ihn _ i hi]
          unfold Cached.next
          split
          · split
            · unfold nextFirst; split
              · simp [updIter, hi]
              · split <;> simp [updIter, hi]
            · split
              · cases ‹List α› <;> simp [nextRead, updIter, hi]
              · simp [updIter, hi]
          · unfold nextFirst; split
            · simp [updIter, hi]
            · split <;> simp [updIter, hi]
          · cases ‹List α› <;> first | rfl | (unfold nextRead; split <;> simp [updIter, hi])
          · rfl
          · rfl
      refine ⟨h1.run _, ?_, ?_, fun h => by omega⟩
      · intro i hi
        unfold toEnd
        rw [hframe _ s i (by omega)]
        exact h2 i (by omega)
      · intro _
        cases k with
        | zero =>
          rw [h4 rfl]
          cases all with
          | nil => exact absurd rfl hne
          | cons b rest =>
            show (((Cached.init (b :: rest)).next 0).run (List.replicate (rest.length + 1) 0)).finished = true
            exact (nextFirst_run 0 rest [b] _ rfl rfl (by simp)).2
        | succ k =>
          have hf := h3 (by omega)
          have hmono : ∀ (n : Nat) (s : Cached α), s.finished = true → (s.run (List.replicate n (k + 1))).finished = true := by
            intro n
            induction n with
            | zero => intro s h; exact h
            | succ n ihn =>
              intro s h
              apply ihn
              unfold Cached.next
              split
              · split
                · unfold nextFirst; split
                  · exact h
                  · split
                    · exact h
                    · rfl
                · split
                  · rw [nextRead_finished]; exact h
                  · rw [nextRead_finished]; exact h
              · unfold nextFirst; split
                · exact h
                · split
                  · exact h
                  · rfl
              · unfold nextRead; split <;> exact h
              · exact h
              · exact h
          exact hmono _ s hf
  obtain ⟨h1, h2, h3, h4⟩ := key k
  simp only at h1 h2 h3 h4 ⊢
  generalize (Cached.init all).run ((List.range k).flatMap (toEnd all)) = s at *
  have hfresh := h2 k (Nat.le_refl _)
  cases all with
  | nil => exact absurd rfl hne
  | cons b rest =>
    show ((s.next k).run (List.replicate (rest.length + 1) k)).iters k = _
    by_cases hk : k = 0
    · rw [h4 hk, hk]
      exact (nextFirst_run 0 rest [b] _ rfl rfl (by simp)).1
    · have hf := h3 (by omega)
      have hc := h1.fin hf
      have : (s.next k).iters k = .reading [b] rest := by
        unfold Cached.next
        rw [hfresh]
        simp [hc, hf, nextRead, updIter]
      exact nextRead_run k rest [b] _ this

end Verif.Sampler
