import Verif.Zip.LemmasColumn
import Verif.RepDef.PropsFsl
/-!
# Columns of vectors in full-zip pages: lemmas
-/
namespace Verif.Zip
open Verif.Mini Verif.RepDef

theorem itemsPerRow_width : ∀ ks : List Kind, itemsPerRow ks = width ks
  | [] => rfl
  | .fsl d :: ks => by rw [itemsPerRow, width, itemsPerRow_width ks]
  | .struct :: ks => itemsPerRow_width ks
  | .list :: ks => itemsPerRow_width ks

/-! ### Rows of the same length -/

theorem take_flatten {A : Type} (M : Nat) : ∀ (n : Nat) (gs : List (List A)), (∀ g ∈ gs, g.length = M) → (gs.take n).flatten = gs.flatten.take (n * M)
  | 0, _, _ => by simp
  | n + 1, [], _ => by simp
  | n + 1, g :: gs, h => by
    have hg := h g (by simp)
    rw [List.take_succ_cons, List.flatten_cons, List.flatten_cons, take_flatten M n gs (fun x hx => h x (by simp [hx])), Nat.succ_mul, ← hg,
      Nat.add_comm, List.take_length_add_append]

theorem drop_flatten {A : Type} (M : Nat) : ∀ (n : Nat) (gs : List (List A)), (∀ g ∈ gs, g.length = M) → (gs.drop n).flatten = gs.flatten.drop (n * M)
  | 0, _, _ => by simp
  | n + 1, [], _ => by simp
  | n + 1, g :: gs, h => by
    have hg := h g (by simp)
    rw [List.drop_succ_cons, List.flatten_cons, drop_flatten M n gs (fun x hx => h x (by simp [hx])), Nat.succ_mul, ← hg,
      Nat.add_comm, List.drop_length_add_append]

theorem selected_flatten {A : Type} (M : Nat) (gs : List (List A)) (h : ∀ g ∈ gs, g.length = M) (ranges : List (Nat × Nat)) :
    (selected gs ranges).flatten = selected gs.flatten (scaled M ranges) := by
  unfold selected scaled
  induction ranges with
  | nil => rfl
  | cons r ranges ih =>
    rw [List.flatMap_cons, List.flatten_append, ih, List.map_cons, List.flatMap_cons,
      take_flatten M _ _ (fun g hg => h g (List.mem_of_mem_drop hg)), drop_flatten M _ _ h, Nat.sub_mul]

theorem inBatches_flatten {A : Type} (M : Nat) : ∀ (bs : List Nat) (gs : List (List A)), (∀ g ∈ gs, g.length = M) →
    (inBatches bs gs).map List.flatten = inBatches (bs.map (· * M)) gs.flatten
  | [], _, _ => rfl
  | b :: bs, gs, h => by
    rw [inBatches, List.map_cons, inBatches_flatten M bs _ (fun g hg => h g (List.mem_of_mem_drop hg)), List.map_cons, inBatches,
      take_flatten M b gs h, drop_flatten M b gs h]

/-! ### Levels that are not all 0 -/

/-- Some array has a null in one of its bitmaps. -/
def HasNull {V : Type} (arrs : List (Arr V)) : Prop := ∃ a ∈ arrs, ∃ bs, some bs ∈ a.bitmaps ∧ false ∈ bs

theorem markNulls_keeps (l : Nat) (hl : l ≠ 0) : ∀ (ds : List Nat) (vs : List Bool), (∃ d ∈ ds, d ≠ 0) → ∃ d ∈ markNulls l ds vs, d ≠ 0
  | [], _, h => by obtain ⟨d, hd, _⟩ := h; simp at hd
  | d :: ds, [], h => h
  | d :: ds, v :: vs, h => by
    obtain ⟨x, hx, h0⟩ := h
    rw [markNulls]
    rcases List.mem_cons.mp hx with rfl | hx
    · refine ⟨if v then x else l, List.mem_cons_self .., ?_⟩
      split
      · exact h0
      · exact hl
    · obtain ⟨y, hy, hy0⟩ := markNulls_keeps l hl ds vs ⟨x, hx, h0⟩
      exact ⟨y, by simp [hy], hy0⟩

theorem markNulls_marks (l : Nat) (hl : l ≠ 0) : ∀ (ds : List Nat) (vs : List Bool), vs.length = ds.length → false ∈ vs → ∃ d ∈ markNulls l ds vs, d ≠ 0
  | _, [], _, h => by simp at h
  | [], _ :: _, h, _ => by simp at h
  | d :: ds, v :: vs, hlen, h => by
    rw [markNulls]
    rcases List.mem_cons.mp h with rfl | h
    · exact ⟨l, by simp, hl⟩
    · obtain ⟨y, hy, hy0⟩ := markNulls_marks l hl ds vs (by simpa using hlen) h
      exact ⟨y, by simp [hy], hy0⟩

theorem markAll_marks (n : Nat) (x : List Bool) (hx : false ∈ x) (hlen : x.length = n) (bs : List (Option (List Bool))) :
    some x ∈ bs → ∃ d ∈ markAll bs 1 (List.replicate n 0), d ≠ 0 := by
  induction bs using snoc_ind with
  | hn => intro h; simp at h
  | hs bs b ih =>
    intro h
    rw [markAll_snoc]
    rcases List.mem_append.mp h with h' | h'
    · cases b with
      | none => exact ih h'
      | some y => exact markNulls_keeps _ (by omega) _ _ (ih h')
    · rw [List.mem_singleton] at h'
      subst h'
      exact markNulls_marks _ (by omega) _ _ (by rw [markAll_length, List.length_replicate, hlen]) hx

theorem tops_null {V : Type} (arrs : List (Arr V)) (a : Arr V) (ha : a ∈ arrs) (bs : List Bool) (ht : a.top = some bs) (hf : false ∈ bs) :
    ∃ x, tops arrs = some x ∧ false ∈ x := by
  have h1 : (tops arrs).isSome = true := by
    rw [tops_isSome, List.any_eq_true]
    exact ⟨a, ha, by rw [ht]; rfl⟩
  obtain ⟨x, hx⟩ := Option.isSome_iff_exists.mp h1
  refine ⟨x, hx, ?_⟩
  unfold tops joinBits at hx
  split at hx
  · simp only [Option.some.injEq] at hx
    subst hx
    rw [List.mem_flatMap]
    exact ⟨(a.top, a.len), List.mem_map_of_mem ha, by rw [ht]; exact hf⟩
  · simp at hx

theorem jointBits_null {V : Type} : ∀ (ks : List Kind), NoLists ks → ∀ arrs : List (Arr V), (∀ a ∈ arrs, a.Ok ks) → HasNull arrs →
    ∃ x, some x ∈ jointBits ks arrs ∧ false ∈ x ∧ x.length = (arrs.map Arr.len).sum * width ks
  | [], _, arrs, hok, ⟨a, ha, bs, hb, hf⟩ => by
    have ht : a.top = some bs := by
      have := hok a ha
      cases a <;> simp only [Arr.Ok] at this
      simp only [Arr.bitmaps, List.mem_singleton] at hb
      exact hb.symm
    obtain ⟨x, hx, hxf⟩ := tops_null arrs a ha bs ht hf
    refine ⟨x, by rw [jointBits, hx]; simp, hxf, ?_⟩
    have := tops_ok arrs (by
      intro a ha
      have := hok a ha
      cases a <;> simp only [Arr.Ok] at this
      exact this) x hx
    rw [this]; simp [width]
  | k :: ks, hn, arrs, hok, ⟨a, ha, bs, hb, hf⟩ => by
    have hn' : NoLists ks := fun x hx => hn x (by simp [hx])
    have hfa := fun a ha => ok_cons k (hn k (by simp)) ks a (hok a ha)
    have hM : 0 < width (k :: ks) := width_pos (k :: ks) hn ⟨a, hok a ha⟩
    obtain ⟨_, _, _, h4, _⟩ := hfa a ha
    rw [h4] at hb
    rcases List.mem_append.mp hb with hb | hb
    · obtain ⟨x, h1, h2, h3⟩ := jointBits_null ks hn' (arrs.map Arr.child) (by
        intro c hc
        obtain ⟨a, ha, rfl⟩ := List.mem_map.mp hc
        exact (hfa a ha).1) ⟨a.child, List.mem_map_of_mem ha, bs, hb, hf⟩
      refine ⟨x, by rw [jointBits]; exact List.mem_append_left _ h1, h2, ?_⟩
      rw [h3, width_cons, ← Nat.mul_assoc, List.map_map]
      congr 1
      rw [← sum_map_mul]
      exact congrArg List.sum (List.map_congr_left fun a ha => (hfa a ha).2.2.2.2.2.1)
    · obtain ⟨x, hx, hxf⟩ := tops_null arrs a ha bs (List.mem_singleton.mp hb).symm hf
      refine ⟨x.flatMap fun v => List.replicate (width (k :: ks)) v, ?_, ?_, ?_⟩
      · rw [jointBits, hx]; simp [spread]
      · rw [List.mem_flatMap]
        exact ⟨false, hxf, by rw [List.mem_replicate]; exact ⟨by omega, rfl⟩⟩
      · have hl := tops_ok arrs (fun a ha => (hfa a ha).2.1) x hx
        rw [← hl]
        clear hx hxf hl
        induction x with
        | nil => simp
        | cons v x ih => rw [List.flatMap_cons, List.length_append, ih, List.length_replicate, List.length_cons, Nat.succ_mul, Nat.add_comm]

/-- A batch of rows of a column without lists is read as its cells. -/
theorem vec_batch {V : Type} (inner : List Layer) (ks : List Kind) (hn : NoLists ks) (hM : 0 < width ks) (hq : inner.length = ks.length + 1)
    (P : FlatPart V) (h : FlatOk inner P) (batch : List (List (Nat × V))) (hlen : ∀ g ∈ batch, g.length = width ks) (hb : ∀ g ∈ batch, ∀ e ∈ g, e ∈ P.items) :
    ∃ arr, decodePages ks [(⟨(expected (P.rows inner) (batch.flatten.map itemSlot)).rep,
        (expected (P.rows inner) (batch.flatten.map itemSlot)).defs, inner⟩, (expected (P.rows inner) (batch.flatten.map itemSlot)).data)] = some arr ∧
      arr.cells = batch.map (rowVal ks inner) := by
  have hd := listDepth_items inner h.innerItems
  have hl : batch.flatten.length = batch.length * width ks := by
    clear hb
    induction batch with
    | nil => simp
    | cons g batch ih =>
      rw [List.flatten_cons, List.length_append, ih (fun x hx => hlen x (by simp [hx])), hlen g (by simp), List.length_cons, Nat.succ_mul, Nat.add_comm]
  obtain ⟨arr, h1, h2, _, h4⟩ := Verif.RepDef.decode_rows inner [⟨P.w, batch.flatten⟩] (by simp) (by
    intro x hx
    rw [List.mem_singleton] at hx
    subst hx
    refine ⟨h.innerItems, fun e he => ?_, h.innerDefs⟩
    obtain ⟨g, hg, heg⟩ := List.mem_flatten.mp he
    exact h.levels e (hb g hg e heg)) ks hn hM (by omega) (by
    intro x hx
    rw [List.mem_singleton] at hx
    subst hx
    simp only [hl]
    exact Nat.mul_mod_left _ _)
  refine ⟨arr, ?_, ?_⟩
  · unfold decodePages
    simp only [List.map_cons, List.map_nil, List.flatMap_cons, List.flatMap_nil, List.append_nil] at h1 ⊢
    simp only [expected, repsOf, defsOf, FlatPart.rows, hd, if_true]
    rw [(itemSlots_flatten batch.flatten).1, (itemSlots_flatten batch.flatten).2]
    simp only [FlatPart.page] at h1
    exact congrArg (Option.map (·.2)) h1
  · rw [h4]
    simp only [List.flatMap_cons, List.flatMap_nil, List.append_nil]
    rw [hl, Nat.mul_div_cancel _ hM, groups_flatten _ _ hlen]

theorem mem_selected_in {A : Type} (gs : List A) (ranges : List (Nat × Nat)) (batches : List Nat) (b : List A) (hb : b ∈ inBatches batches (selected gs ranges)) :
    ∀ g ∈ b, g ∈ gs := fun g hg => mem_selected _ _ _ (mem_inBatches _ _ _ hb g hg)

end Verif.Zip
