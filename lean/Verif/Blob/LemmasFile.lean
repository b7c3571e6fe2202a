import Verif.Blob.Lemmas

/-! # Lemmas on blob files -/
namespace Verif.Blob
open Verif.ListCol (slice)

/-- The bytes of a value, wherever it is: `position` and `size` lead to `bs`. -/
structure Holds (file : Bytes) (p n : Nat) (bs : Bytes) : Prop where
  size : n = bs.length
  fits : p + n ≤ file.length ∨ n = 0
  bytes : slice file (p, p + n) = bs
  small : file.length < 2 ^ 64
  pos : p < 2 ^ 63
  len : n < 2 ^ 63

theorem holds_of_locates {file : Bytes} {d : Desc} {v : Option Bytes} (h : Locates file d v) (hs : file.length < 2 ^ 63) :
    Holds file d.position d.size (v.getD []) := by
  cases v with
  | none =>
    cases h
    exact ⟨rfl, .inr rfl, by simp [slice], by omega, by simp, by simp⟩
  | some bs =>
    cases bs with
    | nil =>
      cases h
      exact ⟨rfl, .inr rfl, by simp [slice], by omega, by simp, by simp⟩
    | cons x xs =>
      obtain ⟨h1, h2, h3⟩ := h
      have : 0 < d.size := by simp at h1; omega
      exact ⟨h1, .inl h2, h3, by omega, by omega, by omega⟩

theorem Holds.part {file : Bytes} {p n : Nat} {bs : Bytes} (h : Holds file p n bs) (a b : Nat) (hab : a ≤ b) (hb : b ≤ n) :
    readRange file (p + a) (p + b) = some (slice bs (a, b)) := by
  unfold readRange
  by_cases he : p + b ≤ p + a
  · rw [if_pos he, Phys.slice_zero_len _ _ _ (by omega)]
  · rw [if_neg he]
    have hf : p + n ≤ file.length := by
      cases h.fits with
      | inl h => exact h
      | inr h => omega
    rw [if_pos (by omega)]
    have := Phys.slice_slice file p (p + n) a b (by omega)
    rw [h.bytes] at this
    rw [this]

theorem wadd_small {a b : Nat} (h : a + b < 2 ^ 64) : wadd a b = a + b := by
  unfold wadd W; exact Nat.mod_eq_of_lt h

theorem wsub_small {a b : Nat} (h : b ≤ a) (ha : a < 2 ^ 64) : wsub a b = a - b := by
  unfold wsub W
  have : a + 2 ^ 64 - b = (a - b) + 2 ^ 64 := by omega
  rw [this, Nat.add_mod_right, Nat.mod_eq_of_lt (by omega)]

/-- The blob file and the plain file are in the same state; `lost` says that the cursor is not to be trusted. -/
structure Agree (b : BlobFile) (r : Ref) (lost : Bool) : Prop where
  holds : Holds b.file b.position b.size r.contents
  state : (r.closed = true ∧ b.state = .closed) ∨
    (r.closed = false ∧ ∃ c, (b.state = .uninit c ∨ b.state = .opened c) ∧ (lost = false → c = r.cursor))

theorem withReader_open {b : BlobFile} {c : Nat} (h : b.state = .uninit c ∨ b.state = .opened c)
    (f : Nat → Option (Nat × Bytes)) (c' : Nat) (d : Bytes) (hf : f c = some (c', d)) :
    withReader b f = (some d, { b with state := .opened c' }) := by
  unfold withReader
  rcases h with h | h <;> rw [h] <;> simp only [hf]

theorem tell_open {b : BlobFile} {c : Nat} (h : b.state = .uninit c ∨ b.state = .opened c) : tell b = some c := by
  unfold tell
  rcases h with h | h <;> rw [h]

theorem seek_agree {b : BlobFile} {r : Ref} {lost : Bool} (h : Agree b r lost) (t : Int) :
    (pySeekAbs b t).1 = (r.seekAbs t).1 ∧
    Agree (pySeekAbs b t).2 (r.seekAbs t).2 (if 0 ≤ t ∧ t < 2 ^ 64 then false else lost) := by
  have hW : (W : Int) = 2 ^ 64 := rfl
  unfold pySeekAbs Ref.seekAbs
  rw [hW]
  rcases h.state with ⟨hc, hs⟩ | ⟨hc, c, hs, _⟩
  · have e : seekTo b t.toNat = (false, b) := by unfold seekTo; rw [hs]
    by_cases ht : 0 ≤ t ∧ t < 2 ^ 64
    · rw [if_pos ht, if_pos ht, if_pos hc, e]
      exact ⟨rfl, h.holds, .inl ⟨hc, hs⟩⟩
    · rw [if_neg ht, if_neg ht, if_pos hc]
      exact ⟨rfl, h.holds, .inl ⟨hc, hs⟩⟩
  · have hc' : ¬ r.closed = true := by rw [hc]; simp
    by_cases ht : 0 ≤ t ∧ t < 2 ^ 64
    · rw [if_pos ht, if_pos ht, if_neg hc', if_pos ht]
      rcases hs with hs | hs
      · have e : seekTo b t.toNat = (true, { b with state := .uninit t.toNat }) := by unfold seekTo; rw [hs]
        rw [e]
        exact ⟨rfl, h.holds, .inr ⟨hc, t.toNat, .inl rfl, fun _ => rfl⟩⟩
      · have e : seekTo b t.toNat = (true, { b with state := .opened t.toNat }) := by unfold seekTo; rw [hs]
        rw [e]
        exact ⟨rfl, h.holds, .inr ⟨hc, t.toNat, .inr rfl, fun _ => rfl⟩⟩
    · rw [if_neg ht, if_neg ht, if_neg hc', if_neg ht]
      exact ⟨rfl, h⟩

theorem take_drop_slice (bs : Bytes) (c n : Nat) (hc : c ≤ bs.length) :
    slice bs (c, c + min n (bs.length - c)) = (bs.drop c).take n := by
  have e : c + min n (bs.length - c) - c = min n (bs.length - c) := by omega
  unfold slice
  rw [e]
  by_cases h : n ≤ bs.length - c
  · rw [Nat.min_eq_left h]
  · rw [Nat.min_eq_right (by omega), List.take_of_length_le (by simp), List.take_of_length_le (by simp; omega)]

theorem readUpTo_agree {b : BlobFile} {r : Ref} (h : Agree b r false) (ho : r.closed = false)
    (hc : r.cursor ≤ r.contents.length) (n : Nat) :
    ∃ b', readUpTo b n = (some ((r.contents.drop r.cursor).take n), b') ∧
      Agree b' { r with cursor := r.cursor + ((r.contents.drop r.cursor).take n).length } false ∧ b'.position = b.position := by
  rcases h.state with ⟨h1, _⟩ | ⟨_, c, hs, he⟩
  · rw [ho] at h1; cases h1
  have he := he rfl
  subst he
  have hh := h.holds
  have hsz := hh.size
  have hp := hh.pos
  have hl := hh.len
  refine ⟨{ b with state := .opened (r.cursor + min n (b.size - r.cursor)) }, ?_, ⟨hh, .inr ⟨ho, _, .inr rfl, fun _ => ?_⟩⟩, rfl⟩
  · unfold readUpTo
    rw [withReader_open hs _ (r.cursor + min n (b.size - r.cursor)) ((r.contents.drop r.cursor).take n)]
    simp only
    rw [wadd_small (a := b.position) (b := r.cursor) (by omega), wsub_small (a := b.size) (by omega) (by omega),
      wadd_small (by omega), wsub_small (by omega) (by omega)]
    unfold getRange
    have := hh.part r.cursor (r.cursor + min n (b.size - r.cursor)) (by omega) (by omega)
    rw [← Nat.add_assoc] at this
    rw [this]
    have e : slice r.contents (r.cursor, r.cursor + min n (b.size - r.cursor)) = (r.contents.drop r.cursor).take n := by
      rw [hsz]; exact take_drop_slice _ _ _ hc
    rw [e]
    simp only [Option.map_some]
    congr 2
    omega
  · simp only [List.length_take, List.length_drop]
    rw [hsz]

theorem readAll_agree {b : BlobFile} {r : Ref} (h : Agree b r false) (ho : r.closed = false)
    (hc : r.cursor ≤ r.contents.length) :
    ∃ b', readAll b = (some (r.contents.drop r.cursor), b') ∧
      Agree b' { r with cursor := r.cursor + (r.contents.drop r.cursor).length } (decide (b.position ≠ 0)) ∧
      b'.position = b.position := by
  rcases h.state with ⟨h1, _⟩ | ⟨_, c, hs, he⟩
  · rw [ho] at h1; cases h1
  have he := he rfl
  subst he
  have hh := h.holds
  have hsz := hh.size
  have hp := hh.pos
  have hl := hh.len
  refine ⟨{ b with state := .opened (b.position + b.size) }, ?_, ⟨hh, .inr ⟨ho, _, .inr rfl, fun hd => ?_⟩⟩, rfl⟩
  · unfold readAll
    rw [withReader_open hs _ (b.position + b.size) (r.contents.drop r.cursor)]
    simp only
    rw [wadd_small (a := b.position) (b := r.cursor) (by omega), wadd_small (by omega)]
    unfold getRange
    rw [hh.part r.cursor b.size (by omega) (Nat.le_refl _)]
    have e : slice r.contents (r.cursor, b.size) = r.contents.drop r.cursor := by
      unfold slice
      rw [List.take_of_length_le (by simp; omega)]
    rw [e]
    rfl
  · simp only [ne_eq, decide_not, Bool.not_eq_eq_eq_not, Bool.not_false, decide_eq_true_eq] at hd
    simp only [List.length_drop]
    omega

theorem closed_read {b : BlobFile} (h : b.state = .closed) (f : Nat → Option (Nat × Bytes)) :
    withReader b f = (none, b) := by
  unfold withReader; rw [h]

theorem pySeekAbs_position (b : BlobFile) (t : Int) : (pySeekAbs b t).2.position = b.position := by
  unfold pySeekAbs seekTo tell
  by_cases ht : 0 ≤ t ∧ t < (W : Int)
  · rw [if_pos ht]
    cases hs : b.state <;> simp
  · rw [if_neg ht]

theorem run_agree : ∀ (ops : List Op) (b : BlobFile) (r : Ref) (lost : Bool), Agree b r lost → Safe b.position lost r ops →
    pyRun b ops = r.run ops
  | [], _, _, _, _, _ => rfl
  | op :: ops, b, r, lost, h, hs => by
    obtain ⟨h1, h2⟩ := hs
    have key : (pyStep b op).1 = (r.step op).1 ∧ ∃ lost', Agree (pyStep b op).2 (r.step op).2 lost' ∧
        Safe (pyStep b op).2.position lost' (r.step op).2 ops := by
      cases op with
      | seek o w =>
        cases w with
        | set =>
          have := seek_agree h o
          refine ⟨this.1, _, this.2, ?_⟩
          show Safe (pySeekAbs b o).2.position _ _ _
          rw [pySeekAbs_position]
          exact h2
        | fromEnd =>
          have := seek_agree h (r.contents.length + o)
          have e : pyStep b (.seek o .fromEnd) = pySeekAbs b (r.contents.length + o) := by
            show pySeekAbs b (b.size + o) = _
            rw [h.holds.size]
          rw [e]
          refine ⟨this.1, _, this.2, ?_⟩
          rw [pySeekAbs_position]
          exact h2
        | cur =>
          rcases h.state with ⟨hc, hst⟩ | ⟨hc, c, hst, he⟩
          · have e1 : pyStep b (.seek o .cur) = (.raised, b) := by
              show pySeek b o .cur = _
              unfold pySeek tell; rw [hst]
            have e2 : r.step (.seek o .cur) = (.raised, r) := by
              show r.seekAbs _ = _
              unfold Ref.seekAbs; rw [if_pos hc]
            rw [e2] at h2
            rw [e1, e2]
            exact ⟨rfl, lost, h, h2⟩
          · have hl : lost = false := by
              rcases h1 with h1 | h1
              · rw [hc] at h1; cases h1
              · exact h1
            subst hl
            have he := he rfl
            subst he
            have e1 : pyStep b (.seek o .cur) = pySeekAbs b (r.cursor + o) := by
              show pySeek b o .cur = _
              unfold pySeek; rw [tell_open hst]
            have := seek_agree h (r.cursor + o)
            rw [e1]
            refine ⟨this.1, _, this.2, ?_⟩
            rw [pySeekAbs_position, ite_self]
            exact h2
      | tell =>
        rcases h.state with ⟨hc, hst⟩ | ⟨hc, c, hst, he⟩
        · have e1 : pyStep b .tell = (.raised, b) := by
            simp only [pyStep, tell, hst]
          have e2 : r.step .tell = (.raised, r) := by simp only [Ref.step, if_pos hc]
          rw [e2] at h2
          rw [e1, e2]
          exact ⟨rfl, lost, h, h2⟩
        · have hl : lost = false := by
            rcases h1 with h1 | h1
            · rw [hc] at h1; cases h1
            · exact h1
          subst hl
          have he := he rfl
          subst he
          have e1 : pyStep b .tell = (.num r.cursor, b) := by simp only [pyStep, tell_open hst]
          have e2 : r.step .tell = (.num r.cursor, r) := by simp [Ref.step, hc]
          rw [e2] at h2
          rw [e1, e2]
          exact ⟨rfl, false, h, h2⟩
      | read n =>
        by_cases hc : r.closed = true
        · have hst : b.state = .closed := by
            rcases h.state with ⟨_, hst⟩ | ⟨hc', _⟩
            · exact hst
            · rw [hc] at hc'; cases hc'
          have e1 : pyStep b (.read n) = (.raised, b) := by simp only [pyStep, readUpTo, closed_read hst]
          have e2 : r.step (.read n) = (.raised, r) := by simp only [Ref.step, if_pos hc]
          rw [e2] at h2
          rw [e1, e2]
          exact ⟨rfl, lost, h, h2⟩
        · have hc' : r.closed = false := by simpa using hc
          rcases h1 with h1 | ⟨hl, hle⟩
          · exact absurd h1 hc
          subst hl
          obtain ⟨b', e, ha, hp⟩ := readUpTo_agree h hc' hle n
          have e1 : pyStep b (.read n) = (.bytes ((r.contents.drop r.cursor).take n), b') := by simp only [pyStep, e]
          have e2 : r.step (.read n) = (.bytes ((r.contents.drop r.cursor).take n),
            { r with cursor := r.cursor + ((r.contents.drop r.cursor).take n).length }) := by
            simp only [Ref.step, if_neg hc]
          rw [e2] at h2
          rw [e1, e2]
          exact ⟨rfl, false, ha, by rw [hp]; exact h2⟩
      | readall =>
        by_cases hc : r.closed = true
        · have hst : b.state = .closed := by
            rcases h.state with ⟨_, hst⟩ | ⟨hc', _⟩
            · exact hst
            · rw [hc] at hc'; cases hc'
          have e1 : pyStep b .readall = (.raised, b) := by simp only [pyStep, readAll, closed_read hst]
          have e2 : r.step .readall = (.raised, r) := by simp only [Ref.step, if_pos hc]
          rw [e2] at h2
          rw [e1, e2]
          exact ⟨rfl, _, ⟨h.holds, .inl ⟨hc, hst⟩⟩, h2⟩
        · have hc' : r.closed = false := by simpa using hc
          rcases h1 with h1 | ⟨hl, hle⟩
          · exact absurd h1 hc
          subst hl
          obtain ⟨b', e, ha, hp⟩ := readAll_agree h hc' hle
          have e1 : pyStep b .readall = (.bytes (r.contents.drop r.cursor), b') := by simp only [pyStep, e]
          have e2 : r.step .readall = (.bytes (r.contents.drop r.cursor),
            { r with cursor := r.cursor + (r.contents.drop r.cursor).length }) := by
            simp only [Ref.step, if_neg hc]
          rw [e2] at h2
          rw [e1, e2]
          exact ⟨rfl, _, ha, by rw [hp]; exact h2⟩
      | close =>
        exact ⟨rfl, lost, ⟨h.holds, .inl ⟨rfl, rfl⟩⟩, h2⟩
      | isClosed =>
        refine ⟨?_, lost, h, h2⟩
        rcases h.state with ⟨hc, hst⟩ | ⟨hc, c, hst, he⟩
        · simp only [pyStep, Ref.step, hst, hc]
        · rcases hst with hst | hst <;> simp only [pyStep, Ref.step, hst, hc]
      | size =>
        refine ⟨?_, lost, h, h2⟩
        simp only [pyStep, Ref.step, h.holds.size]
    obtain ⟨k1, lost', k2, k3⟩ := key
    simp only [pyRun, Ref.run]
    rw [k1, run_agree ops _ _ lost' k2 k3]

end Verif.Blob
