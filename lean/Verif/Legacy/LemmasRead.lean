import Verif.Legacy.LemmasCol
/-! What is read of a column of a legacy file. -/
namespace Verif.Legacy
open Verif.ListCol
open Verif.RowIds.Serde (leBytes fromLe leBytes_length fromLe_leBytes)

variable {α β γ : Type}

/-! ### Requests -/

theorem okStrict_ok {n : Nat} {p : Params} (h : p.OkStrict n) : p.Ok n := by
  cases p with
  | indices is => exact ⟨strict_sorted _ h.1, h.2⟩
  | _ => exact h

/-- The number of rows that a request gives. -/
def Params.count (n : Nat) : Params → Nat
  | .range s e => e - s
  | .full => n
  | .to e => e
  | .from s => n - s
  | .indices is => is.length

theorem pick_length [Inhabited α] (xs : List α) (p : Params) (hp : p.OkStrict xs.length) : (p.pick xs).length = p.count xs.length := by
  cases p with
  | range s e => have h1 : s ≤ e ∧ e ≤ xs.length := hp; simp [Params.pick, Params.count]; omega
  | full => rfl
  | to e => have h1 : e ≤ xs.length := hp; simp [Params.pick, Params.count]; omega
  | «from» s => simp [Params.pick, Params.count]
  | indices is => simp [Params.pick, Params.count]

theorem pick_mem [Inhabited α] (xs : List α) (p : Params) (hp : p.OkStrict xs.length) (x : α) (h : x ∈ p.pick xs) : x ∈ xs := by
  cases p with
  | range s e => exact List.mem_of_mem_take (List.mem_of_mem_drop h)
  | full => exact h
  | to e => exact List.mem_of_mem_take h
  | «from» s => exact List.mem_of_mem_drop h
  | indices is =>
    obtain ⟨i, hi, rfl⟩ := List.mem_map.1 h
    have := hp.2 i hi
    rw [getElem!_pos xs i this]
    exact List.getElem_mem _

theorem pick_zipWith [Inhabited α] [Inhabited β] [Inhabited γ] (f : α → β → γ) (xs : List α) (ys : List β) (he : xs.length = ys.length) (p : Params)
    (hp : p.OkStrict xs.length) : p.pick (List.zipWith f xs ys) = List.zipWith f (p.pick xs) (p.pick ys) := by
  cases p with
  | range s e => simp [Params.pick, List.take_zipWith, List.drop_zipWith]
  | full => rfl
  | to e => simp [Params.pick, List.take_zipWith]
  | «from» s => simp [Params.pick, List.drop_zipWith]
  | indices is =>
    simp only [Params.pick]
    have h2 := hp.2
    clear hp
    induction is with
    | nil => rfl
    | cons i is ih =>
      have h := h2 i (by simp)
      rw [List.map_cons, List.map_cons, List.map_cons, List.zipWith_cons_cons, ih (fun j hj => h2 j (by simp [hj])),
        getElem!_pos _ i (by simp; omega), getElem!_pos xs i h, getElem!_pos ys i (by omega), List.getElem_zipWith]

theorem zipWith_flatMap (f : α → β → γ) (g : Arr → List α) (h : Arr → List β) : ∀ (arrs : List Arr), (∀ a ∈ arrs, (g a).length = (h a).length) →
    arrs.flatMap (fun a => List.zipWith f (g a) (h a)) = List.zipWith f (arrs.flatMap g) (arrs.flatMap h)
  | [], _ => rfl
  | a :: arrs, hl => by
    rw [List.flatMap_cons, List.flatMap_cons, List.flatMap_cons, zipWith_flatMap f g h arrs (fun b hb => hl b (by simp [hb])),
      List.zipWith_append (hl a (by simp))]

theorem total_cons (a : Arr) (arrs : List Arr) : total (a :: arrs) = a.length + total arrs := by simp [total]

theorem total_eq (t : CTy) : ∀ (arrs : List Arr), (∀ a ∈ arrs, Good t a) → (arrs.flatMap (stored t)).length = total arrs
  | [], _ => rfl
  | a :: arrs, h => by
    rw [List.flatMap_cons, List.length_append, stored_length t a (h a (by simp)), total_eq t arrs (fun b hb => h b (by simp [hb])), total_cons]

/-! ### Columns of fixed width -/

theorem readPlain_ok (f g : File) (block id batch len : Nat) (t : Ty) (ht : t.Pos) (hb : t = .bool ∨ t.leaf ≠ .bool) (R : List (List Cell))
    (hR : ∀ r ∈ R, r.length = t.mult ∧ ∀ c ∈ r, Fits t.leaf c.2) (arrs : List (List Cell)) (ha : arrs.flatten = R.flatten) (hlen : len = R.length)
    (hg : ∃ more, g.bytes = (f.add (encode t arrs) id batch f.bytes.length len).bytes ++ more) (p : Params) (hp : p.OkStrict R.length) :
    readPlain g.bytes block f.bytes.length t len p = some (p.pick (R.map (fun r => r.map (keep t.leaf)))) := by
  obtain ⟨more, hg⟩ := hg
  subst hlen
  have hl : R.flatten.length = R.length * t.mult := by
    have := flatMap_length (fun r : List Cell => r) t.mult R (fun r hr => (hR r hr).1)
    rwa [List.flatMap_def, List.map_id'] at this
  rw [hg]
  show readPlain (f.bytes ++ encode t arrs ++ more) block f.bytes.length t R.length p = _
  rw [C102_read_kept f.bytes more block t ht arrs R.length (by
    intro a h c hc
    have : c ∈ R.flatten := ha ▸ List.mem_flatten.2 ⟨a, h, hc⟩
    obtain ⟨r, hr, hc⟩ := List.mem_flatten.1 this
    exact (hR r hr).2 c hc) (by rw [ha, hl]) p (okStrict_ok hp) (by
    rcases hb with h | h
    · exact Or.inl h
    · exact Or.inr (Or.inl h)), ← kept_eq]
  unfold kept
  rw [ha]
  have := chunk_flatMap (fun r : List Cell => r.map (keep t.leaf)) t.mult R (fun r hr => by rw [List.length_map]; exact (hR r hr).1)
  rw [← this, List.flatMap_def, List.map_flatten]

/-! ### Lists -/

/-- The number of items before list `i`. -/
def before (L : List (List α)) (i : Nat) : Nat := ((lens L).take i).sum

theorem before_mono (L : List (List α)) (a b : Nat) (h : a ≤ b) : before L a ≤ before L b := by
  unfold before
  have : b = a + (b - a) := by omega
  rw [this, List.take_add (i := a), List.sum_append]
  omega

theorem before_le (L : List (List α)) (a : Nat) : before L a ≤ L.flatten.length := by
  unfold before
  rw [← sum_lens]
  have : (lens L).sum = ((lens L).take a).sum + ((lens L).drop a).sum := by rw [← List.sum_append, List.take_append_drop]
  omega

theorem before_all (L : List (List α)) : before L L.length = L.flatten.length := by
  unfold before
  rw [List.take_of_length_le (by simp), sum_lens]

theorem before_add (L : List (List α)) (s n : Nat) : before L s + ((slice (lens L) (s, s + n)).take n).sum = before L (s + n) := by
  unfold before slice
  simp only [Nat.add_sub_cancel_left]
  rw [List.take_take, Nat.min_self, List.take_add (i := s), List.sum_append]

theorem toLists_ok (L : List (List Val)) : toLists (sums 0 (lens L)) L.flatten = some (L.map Val.ofList) := by
  unfold toLists
  rw [if_pos (offsetsOk_sums _ _ _ (by rw [sum_lens]; omega)), pieces_flatten]

theorem positions_slice (L : List (List Val)) (s e : Nat) (hse : s ≤ e) (he : e ≤ L.length) :
    (slice (sums 0 (lens L)) (s, e + 1))[0]? = some (before L s) ∧ (slice (sums 0 (lens L)) (s, e + 1))[e - s]? = some (before L e) ∧
    toLists ((slice (sums 0 (lens L)) (s, e + 1)).map (· - before L s)) (slice L.flatten (before L s, before L e)) = some ((slice L (s, e)).map Val.ofList) := by
  have hl : (lens L).length = L.length := by simp
  rw [sums_slice _ _ _ _ hse (by omega), Nat.zero_add]
  change (sums (before L s) _)[0]? = _ ∧ _
  have e1 : s + (e - s) = e := by omega
  refine ⟨?_, ?_, ?_⟩
  · rw [sums_get _ _ 0 (Nat.zero_le _)]; simp
  · rw [sums_get _ _ (e - s) (by rw [length_slice _ _ (by simp only; omega)]; simp)]
    have := before_add L s (e - s)
    rw [e1] at this
    exact congrArg some this
  · have h0 := sums_map_sub (before L s) 0 (slice (lens L) (s, e))
    rw [Nat.add_zero] at h0
    have hf := slice_flatten L s e hse
    change toLists ((sums (before L s) _).map _) _ = _
    rw [h0, slice_map]
    change slice L.flatten (before L s, before L e) = _ at hf
    rw [hf]
    exact toLists_ok _

theorem readList_ok (sub : Params → Option (List Val)) (readPos : Params → Option (List Nat)) (L : List (List Val))
    (hsub : ∀ p, p.OkStrict L.flatten.length → p ≠ .indices [] → sub p = some (p.pick L.flatten))
    (hpos : ∀ p, p.OkStrict (L.length + 1) → (∀ is, p ≠ .indices is) → readPos p = some (p.pick (sums 0 (lens L))))
    (p : Params) (hp : p.OkStrict L.length) (hne : p ≠ .indices []) : readList sub readPos p = some (p.pick (L.map Val.ofList)) := by
  have hl : (lens L).length = L.length := by simp
  have hsl : (sums 0 (lens L)).length = L.length + 1 := by rw [sums_length, hl]
  have hpm := pick_map Val.ofList L p hp
  rw [hpm]
  unfold readList
  cases p with
  | range s e =>
    have hp : s ≤ e ∧ e ≤ L.length := hp
    obtain ⟨a1, a2, a3⟩ := positions_slice L s e hp.1 hp.2
    simp only [positionParams, Option.bind_eq_bind, Option.bind_some]
    rw [hpos (.range s (e + 1)) (show s ≤ e + 1 ∧ e + 1 ≤ L.length + 1 by omega) (by simp)]
    have hpk : (Params.range s (e + 1)).pick (sums 0 (lens L)) = slice (sums 0 (lens L)) (s, e + 1) := (slice_eq_drop_take _ _ _ (by omega)).symm
    simp only [hpk, valueParams, Option.bind_eq_bind, Option.bind_some, a1, a2]
    have hv := hsub (.range (before L s) (before L e)) ⟨before_mono L s e hp.1, before_le L e⟩ (by simp)
    have hpk2 : (Params.range (before L s) (before L e)).pick L.flatten = slice L.flatten (before L s, before L e) :=
      (slice_eq_drop_take _ _ _ (before_mono L s e hp.1)).symm
    rw [hv, hpk2]
    simp only [Option.bind_some, a3]
    rw [slice_eq_drop_take _ _ _ hp.1]
    rfl
  | full =>
    obtain ⟨a1, a2, a3⟩ := positions_slice L 0 L.length (Nat.zero_le _) (Nat.le_refl _)
    have hpk : slice (sums 0 (lens L)) (0, L.length + 1) = sums 0 (lens L) := by rw [← hsl, slice_all]
    rw [hpk] at a1 a2 a3
    simp only [positionParams, Option.bind_eq_bind, Option.bind_some]
    rw [hpos .full trivial (by simp)]
    have hpk1 : Params.full.pick (sums 0 (lens L)) = sums 0 (lens L) := rfl
    have e1 : (sums 0 (lens L)).length - 1 = L.length - 0 := by omega
    simp only [hpk1, valueParams, Option.bind_eq_bind, Option.bind_some, a1, e1, a2]
    have hv := hsub (.range (before L 0) (before L L.length)) ⟨before_mono L _ _ (Nat.zero_le _), before_le L _⟩ (by simp)
    have hpk2 : (Params.range (before L 0) (before L L.length)).pick L.flatten = slice L.flatten (before L 0, before L L.length) :=
      (slice_eq_drop_take _ _ _ (before_mono L _ _ (Nat.zero_le _))).symm
    rw [hv, hpk2]
    simp only [Option.bind_some, a3, slice_all]
    rfl
  | to e =>
    have hp : e ≤ L.length := hp
    obtain ⟨a1, a2, a3⟩ := positions_slice L 0 e (Nat.zero_le _) hp
    simp only [positionParams, Option.bind_eq_bind, Option.bind_some]
    rw [hpos (.to (e + 1)) (show e + 1 ≤ L.length + 1 by omega) (by simp)]
    have hpk : (Params.to (e + 1)).pick (sums 0 (lens L)) = slice (sums 0 (lens L)) (0, e + 1) := by simp [Params.pick, slice]
    rw [Nat.sub_zero] at a2
    simp only [hpk, valueParams, Option.bind_eq_bind, Option.bind_some, a1, a2]
    have hv := hsub (.to (before L e)) (show before L e ≤ _ from before_le L e) (by simp)
    have hb0 : before L 0 = 0 := by simp [before]
    have hpk2 : (Params.to (before L e)).pick L.flatten = slice L.flatten (before L 0, before L e) := by simp [Params.pick, slice, hb0]
    rw [hv, hpk2]
    simp only [Option.bind_some, a3]
    simp [slice, Params.pick]
  | «from» s =>
    have hp : s ≤ L.length := hp
    obtain ⟨a1, a2, a3⟩ := positions_slice L s L.length hp (Nat.le_refl _)
    simp only [positionParams, Option.bind_eq_bind, Option.bind_some]
    rw [hpos (.from s) (show s ≤ L.length + 1 by omega) (by simp)]
    have hpk : (Params.from s).pick (sums 0 (lens L)) = slice (sums 0 (lens L)) (s, L.length + 1) := by
      simp only [Params.pick, slice]
      rw [List.take_of_length_le (by rw [List.length_drop]; omega)]
    simp only [hpk, valueParams, Option.bind_eq_bind, Option.bind_some, a1]
    have hv := hsub (.from (before L s)) (show before L s ≤ _ from before_le L s) (by simp)
    have hpk2 : (Params.from (before L s)).pick L.flatten = slice L.flatten (before L s, before L L.length) := by
      simp only [Params.pick, slice, before_all]
      rw [List.take_of_length_le (by rw [List.length_drop]; omega)]
    rw [hv, hpk2]
    simp only [Option.bind_some, a3]
    simp only [slice, Params.pick]
    rw [List.take_of_length_le (by rw [List.length_drop]; omega)]
  | indices is =>
    cases is with
    | nil => exact absurd rfl hne
    | cons x xs =>
      have hst : Strict (x :: xs) := hp.1
      have hin : ∀ i ∈ x :: xs, i < L.length := hp.2
      have hnn : x :: xs ≠ [] := by simp
      have hs := strict_sorted _ hst
      have hle := sorted_getLast _ hnn hs
      have hlast := hin _ (List.getLast_mem hnn)
      have hxl := hle x (by simp)
      have hge : ∀ i ∈ x :: xs, x ≤ i := by
        intro i hi'
        rcases List.mem_cons.1 hi' with rfl | h'
        · exact Nat.le_refl _
        · exact hs.1 i h'
      simp only [positionParams, List.head?_cons, List.getLast?_eq_some_getLast hnn, Option.bind_eq_bind, Option.bind_some]
      rw [hpos (.range x ((x :: xs).getLast hnn + 2)) (show x ≤ (x :: xs).getLast hnn + 2 ∧ (x :: xs).getLast hnn + 2 ≤ L.length + 1 by omega) (by simp)]
      have hpk : (Params.range x ((x :: xs).getLast hnn + 2)).pick (sums 0 (lens L)) = slice (sums 0 (lens L)) (x, ((x :: xs).getLast hnn + 1) + 1) :=
        (slice_eq_drop_take _ _ _ (by omega)).symm
      simp only [hpk, Option.bind_some]
      have hget : ∀ j, x ≤ j → j ≤ (x :: xs).getLast hnn + 1 → (slice (sums 0 (lens L)) (x, ((x :: xs).getLast hnn + 1) + 1))[j - x]? = some (before L j) := by
        intro j h1 h2
        unfold slice
        simp only
        rw [List.getElem?_take, if_pos (by omega), List.getElem?_drop, Nat.add_sub_cancel' h1, sums_get _ _ j (by omega), Nat.zero_add]
        rfl
      unfold takeLists
      simp only [List.head?_cons, Option.bind_eq_bind, Option.bind_some]
      rw [mapM_some_of _ (fun i => (before L i, before L (i + 1))) (x :: xs) (by
        intro i hi
        have h1 := hge i hi
        have h2 := hle i hi
        have e1 : i - x + 1 = (i + 1) - x := by omega
        rw [hget i h1 (by omega), e1, hget (i + 1) (by omega) (by omega)]
        rfl)]
      simp only [Option.bind_some]
      have hpart : ∀ i ∈ x :: xs, sub (.range (before L i) (before L (i + 1))) = some (L.getD i []) := by
        intro i hi
        have h3 := hin i hi
        rw [hsub (.range (before L i) (before L (i + 1))) ⟨before_mono L _ _ (by omega), before_le L _⟩ (by simp)]
        have hpk2 : (Params.range (before L i) (before L (i + 1))).pick L.flatten = slice L.flatten (before L i, before L (i + 1)) :=
          (slice_eq_drop_take _ _ _ (before_mono L _ _ (by omega))).symm
        have hf := slice_flatten L i (i + 1) (by omega)
        change slice L.flatten (before L i, before L (i + 1)) = _ at hf
        rw [hpk2, hf, slice_one L i h3, List.getD_eq_getElem?_getD, List.getElem?_eq_getElem h3]
        simp
      rw [List.mapM_map, mapM_some_of ((fun r : Nat × Nat => sub (.range r.1 r.2)) ∘ fun i => (before L i, before L (i + 1))) (fun i => L.getD i []) (x :: xs) hpart]
      simp only [Option.bind_some, List.map_map]
      have hlen : (x :: xs).map ((fun r : Nat × Nat => r.2 - r.1) ∘ fun i => (before L i, before L (i + 1))) = lens ((x :: xs).map (fun i => L.getD i [])) := by
        rw [lens, List.map_map]
        apply List.map_congr_left
        intro i hi
        have h3 := hin i hi
        simp only [Function.comp_apply]
        have := before_add L i 1
        have h4 : ((slice (lens L) (i, i + 1)).take 1).sum = (L.getD i []).length := by
          rw [slice_one (lens L) i (by omega), List.getD_eq_getElem?_getD, List.getElem?_eq_getElem h3]
          simp
        omega
      rw [hlen, toLists_ok, List.map_map]
      simp only [Params.pick, Option.some.injEq, List.map_map]
      apply List.map_congr_left
      intro i hi
      have h3 := hin i hi
      simp only [Function.comp_apply]
      rw [getElem!_pos L i h3, List.getD_eq_getElem?_getD, List.getElem?_eq_getElem h3]
      rfl

end Verif.Legacy
