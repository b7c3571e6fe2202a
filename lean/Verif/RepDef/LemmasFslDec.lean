import Verif.RepDef.LemmasFslEnc
/-!
# Lemmas on levels: reading fixed size lists
-/
namespace Verif.RepDef
open Verif.Mini (Layer RepDefs)

/-- The first levels of rows of `M` items. -/
def heads {V : Type} (M : Nat) (items : List (Nat × V)) : List Nat := (groups M (items.length / M) items).map headLevel

/-- A page with the levels of rows of `M` items. -/
def FlatPart.thin {V : Type} (inner : List Layer) (M : Nat) (P : FlatPart V) : RepDefs :=
  ⟨none, if P.w then some (heads M P.items) else none, inner⟩

theorem heads_one {V : Type} (items : List (Nat × V)) : heads 1 items = items.map (·.1) := by
  unfold heads
  rw [Nat.div_one]
  induction items with
  | nil => rfl
  | cons e items ih =>
    rw [List.length_cons, groups, List.map_cons, List.map_cons]
    simp only [List.take_succ_cons, List.take_zero, List.drop_succ_cons, List.drop_zero]
    rw [ih]
    rfl

theorem heads_append {V : Type} (M : Nat) (hM : 0 < M) (xs ys : List (Nat × V)) (h : xs.length % M = 0) : heads M (xs ++ ys) = heads M xs ++ heads M ys := by
  have hx : xs.length = xs.length / M * M := (Nat.div_mul_cancel (Nat.dvd_of_mod_eq_zero h)).symm
  unfold heads
  have hd : (xs ++ ys).length / M = xs.length / M + ys.length / M := by
    rw [List.length_append]
    conv => lhs; rw [hx, Nat.add_comm]
    rw [Nat.add_mul_div_right _ _ hM, Nat.add_comm]
  rw [hd, groups_append M _ _ _ _ hx, List.map_append]

theorem heads_flatMap {V : Type} (M : Nat) (hM : 0 < M) (parts : List (FlatPart V)) (h : ∀ P ∈ parts, P.items.length % M = 0) :
    (parts.flatMap fun P => heads M P.items) = heads M (parts.flatMap FlatPart.items) := by
  induction parts with
  | nil => simp [heads, groups]
  | cons P parts ih =>
    rw [List.flatMap_cons, List.flatMap_cons, heads_append M hM _ _ (h P (by simp)), ih (fun x hx => h x (by simp [hx]))]

theorem length_mod {V : Type} (M : Nat) (parts : List (FlatPart V)) (h : ∀ P ∈ parts, P.items.length % M = 0) :
    (parts.flatMap FlatPart.items).length % M = 0 := by
  induction parts with
  | nil => simp
  | cons P parts ih =>
    rw [List.flatMap_cons, List.length_append, Nat.add_mod, h P (by simp), ih (fun x hx => h x (by simp [hx]))]
    simp

theorem heads_le {V : Type} (M m : Nat) (items : List (Nat × V)) (h : ∀ e ∈ items, e.1 ≤ m) : ∀ d ∈ heads M items, d ≤ m := by
  intro d hd
  obtain ⟨g, hg, rfl⟩ := List.mem_map.mp hd
  cases g with
  | nil => simp [headLevel]
  | cons e g => exact h e (groups_mem M _ _ _ hg e (by simp))

theorem everyNth_skip (d : Nat) : ∀ (k : Nat) (l : List Nat), everyNth d k l = everyNth d 0 (l.drop k)
  | 0, _ => rfl
  | k + 1, [] => by simp [everyNth]
  | k + 1, x :: l => by rw [everyNth, everyNth_skip d k l, List.drop_succ_cons]

theorem everyNth_groups (d : Nat) (hd : 0 < d) : ∀ (n : Nat) (l : List Nat), l.length = n * d → everyNth d 0 l = (groups d n l).map (·.headD 0)
  | 0, l, h => by
    have : l = [] := List.length_eq_zero_iff.mp (by omega)
    simp [this, groups, everyNth]
  | n + 1, l, h => by
    rw [Nat.succ_mul] at h
    cases l with
    | nil => simp at h; omega
    | cons x l =>
      obtain ⟨e, rfl⟩ : ∃ e, d = e + 1 := ⟨d - 1, by omega⟩
      rw [everyNth, everyNth_skip, groups, List.map_cons, Nat.add_sub_cancel, List.drop_succ_cons, List.take_succ_cons,
        everyNth_groups (e + 1) hd n (l.drop e) (by rw [List.length_drop]; simp at h; omega)]
      rfl

theorem everyNth_heads {V : Type} (d M : Nat) (hd : 0 < d) (hM : 0 < M) (items : List (Nat × V)) (h : items.length % (d * M) = 0) :
    everyNth d 0 (heads M items) = heads (d * M) items := by
  have hx : items.length = items.length / (d * M) * (d * M) := (Nat.div_mul_cancel (Nat.dvd_of_mod_eq_zero h)).symm
  have hq : items.length / M = items.length / (d * M) * d := by
    conv => lhs; rw [hx]
    rw [← Nat.mul_assoc, Nat.mul_div_cancel _ hM]
  unfold heads
  rw [everyNth_groups d hd (items.length / (d * M)) _ (by rw [List.length_map, groups_length, hq]), hq, groups_map, groups_groups, List.map_map,
    List.map_map]
  apply List.map_congr_left
  intro g hg
  have hgl := groups_each (d * M) _ _ hx g hg
  simp only [Function.comp]
  obtain ⟨e, rfl⟩ : ∃ e, d = e + 1 := ⟨d - 1, by omega⟩
  rw [groups, List.map_cons, List.headD_cons]
  cases g with
  | nil =>
    simp only [List.length_nil] at hgl
    have := Nat.mul_pos hd hM
    omega
  | cons x g =>
    obtain ⟨f, rfl⟩ : ∃ f, M = f + 1 := ⟨M - 1, by omega⟩
    rfl

theorem decimate_thin {V : Type} (inner : List Layer) (d M k : Nat) (hd : 0 < d) (hM : 0 < M) (P : FlatPart V) (h : P.items.length % (d * M) = 0) :
    (advance k (P.thin inner M)).decimate d = some (advance k (P.thin inner (d * M))) := by
  unfold Unraveler.decimate advance FlatPart.thin
  rcases Bool.eq_false_or_eq_true P.w with hw | hw
  · simp only [Option.isSome_none, Bool.false_eq_true, if_false, hw, if_true]
    rw [if_neg (by omega), everyNth_heads d M hd hM _ h]
  · simp only [Option.isSome_none, Bool.false_eq_true, if_false, hw]

theorem thin_step {V : Type} (inner : List Layer) (M : Nat) (hM : 0 < M) (parts : List (FlatPart V)) (hne : parts ≠ []) (hp : ∀ P ∈ parts, FlatOk inner P)
    (hmod : ∀ P ∈ parts, P.items.length % M = 0) (k : Nat) (hk : k < inner.length) :
    unravelValidity (parts.map fun P => advance k (P.thin inner M)) =
      some (parts.map (fun P => advance (k + 1) (P.thin inner M)),
        if inner[k] = .nullableItem then
          some ((heads M (parts.flatMap FlatPart.items)).map fun d => decide (d ≤ defSum (inner.take k))) else none) := by
  have hi : ∀ l ∈ inner, isItem l := by
    cases parts with
    | nil => exact absurd rfl hne
    | cons P _ => exact (hp P (by simp)).innerItems
  have := unravelValidity_step inner hi (parts.map fun P => (P.thin inner M, heads M P.items)) (by simpa using hne) (by
    intro p hpm
    obtain ⟨P, hP, rfl⟩ := List.mem_map.mp hpm
    refine ⟨⟨[], by simp [FlatPart.thin]⟩, ?_, ?_⟩
    · intro ds hds
      simp only [FlatPart.thin] at hds
      split at hds
      · simp only [Option.some.injEq] at hds
        subst hds
        exact shown_flat _ inner hi rfl _ (heads_le M _ _ (hp P hP).levels)
      · simp at hds
    · intro hm
      simp [FlatPart.thin, (hp P hP).innerDefs hm]) k hk
  rw [List.map_map, List.map_map, List.flatMap_map, heads_flatMap M hM parts hmod] at this
  exact this

theorem mask_groups {V : Type} (inner : List Layer) (k : Nat) (hk : k < inner.length) (hi : isItem inner[k]) (cmp : Nat) (h : List (Nat × V) → Nat)
    (F : List (Nat × V) → Val V) (G : List (List (Nat × V))) :
    mask (if inner[k] = .nullableItem then some ((G.map h).map fun d => decide (d ≤ cmp)) else none) (G.map F) =
      G.map fun g => cellStep (inner.getD k .allValidItem) cmp (h g) (F g) := by
  have hg : inner.getD k Layer.allValidItem = inner[k] := by rw [List.getD_eq_getElem?_getD, List.getElem?_eq_getElem hk]; rfl
  rw [hg]
  rcases hi with h1 | h1
  · rw [if_pos h1]
    simp only [mask, h1]
    induction G with
    | nil => rfl
    | cons g G ih =>
      simp only [List.map_cons, List.zipWith_cons_cons, decide_eq_true_eq]
      rw [ih]
      simp [cellStep]
  · rw [if_neg (by rw [h1]; decide)]
    simp only [mask, h1, List.map_map]
    apply List.map_congr_left
    intro g _
    simp [cellStep]

/-- Pages of a column without lists are read row by row. -/
theorem decode_rows {V : Type} (inner : List Layer) (parts : List (FlatPart V)) (hne : parts ≠ []) (hp : ∀ P ∈ parts, FlatOk inner P) :
    ∀ (ks : List Kind), NoLists ks → 0 < width ks → ks.length + 1 ≤ inner.length → (∀ P ∈ parts, P.items.length % width ks = 0) →
    ∃ arr, decode ks (parts.map fun P => Unraveler.new (P.page inner)) ((parts.flatMap FlatPart.items).map (·.2)) =
        some (parts.map (fun P => advance (ks.length + 1) (P.thin inner (width ks))), arr) ∧
      arr.len = (parts.flatMap FlatPart.items).length / width ks ∧ arr.Ok ks ∧
      arr.cells = (groups (width ks) ((parts.flatMap FlatPart.items).length / width ks) (parts.flatMap FlatPart.items)).map (rowVal ks inner) := by
  have hi : ∀ l ∈ inner, isItem l := by
    cases parts with
    | nil => exact absurd rfl hne
    | cons P _ => exact (hp P (by simp)).innerItems
  have hball : ∀ (bits : Option (List Bool)) (n : Nat), BitsOk bits n → bits.all (fun b => b.length == n) = true := by
    intro bits n h; cases bits with
    | none => rfl
    | some b => simp [h b rfl]
  have hb : ∀ (M k : Nat) (hk : k < inner.length), BitsOk (if inner[k] = .nullableItem then
      some ((heads M (parts.flatMap FlatPart.items)).map fun d => decide (d ≤ defSum (inner.take k))) else none)
      ((parts.flatMap FlatPart.items).length / M) := by
    intro M k hk bs hbs
    split at hbs
    · simp only [Option.some.injEq] at hbs; subst hbs; rw [List.length_map, heads, List.length_map, groups_length]
    · simp at hbs
  intro ks
  induction ks with
  | nil =>
    intro _ _ hk hmod
    have hk0 : 0 < inner.length := by simp at hk; omega
    have hst := thin_step inner 1 (by omega) parts hne hp hmod 0 hk0
    have hnew : (parts.map fun P => Unraveler.new (P.page inner)) = parts.map fun P => advance 0 (P.thin inner 1) := by
      apply List.map_congr_left
      intro P _
      simp [Unraveler.new, advance, defSum, FlatPart.page, FlatPart.thin, heads_one]
    have hb0 := hb 1 0 hk0
    refine ⟨.prim ((parts.flatMap FlatPart.items).map (·.2)) (if inner[0]'hk0 = .nullableItem then
          some ((heads (1) (parts.flatMap FlatPart.items)).map fun d => decide (d ≤ defSum (inner.take (0)))) else none), ?_, ?_, ?_, ?_⟩
    · rw [decode, hnew, hst]
      simp only
      rw [if_pos (hball _ _ (by rw [List.length_map]; rw [Nat.div_one] at hb0; exact hb0))]
      rfl
    · simp [Arr.len, width]
    · rw [Nat.div_one] at hb0
      show BitsOk _ _
      rw [List.length_map]
      exact hb0
    · rw [Arr.cells]
      simp only [width, Nat.div_one]
      have hF : ((parts.flatMap FlatPart.items).map (·.2)).map (Val.item (V := V)) =
          (groups 1 (parts.flatMap FlatPart.items).length (parts.flatMap FlatPart.items)).map
            (fun g => (match g with | e :: _ => Val.item e.2 | [] => Val.null)) := by
        generalize parts.flatMap FlatPart.items = l
        induction l with
        | nil => rfl
        | cons e l ih =>
          rw [List.length_cons, groups, List.map_cons, List.map_cons, List.map_cons]
          simp only [List.take_succ_cons, List.take_zero, List.drop_succ_cons, List.drop_zero]
          rw [ih]
      have := mask_groups inner 0 hk0 (hi _ (List.getElem_mem hk0)) (defSum (inner.take 0)) headLevel
        (fun g => (match g with | e :: _ => Val.item e.2 | [] => Val.null)) (groups 1 (parts.flatMap FlatPart.items).length (parts.flatMap FlatPart.items))
      rw [hF]
      unfold heads
      rw [Nat.div_one, this]
      apply List.map_congr_left
      intro g hg
      have hgl := groups_each 1 _ _ (by simp) g hg
      cases g with
      | nil => simp at hgl
      | cons e g => simp [rowVal, headLevel, defSum]
  | cons k ks ih =>
    intro hn hM hk hmod
    have hn' : NoLists ks := fun x hx => hn x (by simp [hx])
    simp only [List.length_cons] at hk
    have hk1 : ks.length + 1 < inner.length := by omega
    rw [width_cons] at hM
    have hM1 : 0 < width [k] := Nat.pos_of_mul_pos_right hM
    have hM2 : 0 < width ks := Nat.pos_of_mul_pos_left hM
    rw [← width_cons] at hM
    have hmod' : ∀ P ∈ parts, P.items.length % width ks = 0 := by
      intro P hP
      have := hmod P hP
      rw [width_cons] at this
      exact Nat.mod_eq_zero_of_dvd (Nat.dvd_trans (Nat.dvd_mul_left _ _) (Nat.dvd_of_mod_eq_zero this))
    obtain ⟨c, h1, h2, h3, h4⟩ := ih hn' hM2 (by omega) hmod'
    have hall := length_mod (width (k :: ks)) parts hmod
    have hq : (parts.flatMap FlatPart.items).length / width ks = (parts.flatMap FlatPart.items).length / width (k :: ks) * width [k] := by
      have hx := (Nat.div_mul_cancel (Nat.dvd_of_mod_eq_zero hall)).symm
      rw [width_cons] at hx ⊢
      conv => lhs; rw [hx]
      rw [← Nat.mul_assoc, Nat.mul_div_cancel _ hM2]
    have hst := thin_step inner (width (k :: ks)) hM parts hne hp hmod (ks.length + 1) hk1
    have hbk := hb (width (k :: ks)) (ks.length + 1) hk1
    have hmg := fun F => mask_groups inner (ks.length + 1) hk1 (hi _ (List.getElem_mem hk1)) (defSum (inner.take (ks.length + 1))) headLevel F
        (groups (width (k :: ks)) ((parts.flatMap FlatPart.items).length / width (k :: ks)) (parts.flatMap FlatPart.items))
    cases k with
    | list => exact absurd rfl (hn .list (by simp))
    | struct =>
      refine ⟨.struct c (if inner[ks.length + 1]'hk1 = .nullableItem then
          some ((heads (width (.struct :: ks)) (parts.flatMap FlatPart.items)).map fun d => decide (d ≤ defSum (inner.take (ks.length + 1)))) else none), ?_, ?_, ?_, ?_⟩
      · rw [decode, h1]
        simp only
        have hw : width (.struct :: ks) = width ks := rfl
        rw [hw] at hst hbk
        rw [hst]
        simp only
        rw [h2, if_pos (hball _ _ hbk)]
        rfl
      · exact h2
      · exact ⟨h3, by rw [h2]; exact hbk⟩
      · rw [Arr.cells, h4]
        exact hmg (rowVal ks inner)
    | fsl d =>
      have hd : 0 < d := by simpa [width] using hM1
      have hw : width (.fsl d :: ks) = d * width ks := rfl
      simp only [width, Nat.mul_one] at hq
      have hlen : c.len / d = (parts.flatMap FlatPart.items).length / width (.fsl d :: ks) := by
        rw [h2, hq, Nat.mul_div_cancel _ hd]; rfl
      refine ⟨.fsl d c (if inner[ks.length + 1]'hk1 = .nullableItem then
          some ((heads (width (.fsl d :: ks)) (parts.flatMap FlatPart.items)).map fun d => decide (d ≤ defSum (inner.take (ks.length + 1)))) else none), ?_, ?_, ?_, ?_⟩
      · rw [decode, h1]
        simp only
        have hdec : (parts.map fun P => advance (ks.length + 1) (P.thin inner (width ks))).mapM (Unraveler.decimate d) =
            some (parts.map fun P => advance (ks.length + 1) (P.thin inner (width (.fsl d :: ks)))) := by
          rw [List.mapM_map]
          apply mapM_map_some
          intro P hP
          exact decimate_thin inner d (width ks) _ hd hM2 P (hmod P hP)
        rw [unravelFsl, hdec]
        simp only
        rw [hst]
        simp only
        rw [hlen, if_pos (hball _ _ hbk)]
        rfl
      · exact hlen
      · refine ⟨h3, by rw [hlen]; exact hbk, rfl, hd, ?_⟩
        rw [h2, hq, Nat.mul_mod_left]
      · rw [Arr.cells, hlen, h4, hq, groups_map]
        have := hmg (fun g => .list ((groups (width ks) d g).map (rowVal ks inner)))
        rw [← hw, groups_groups, List.map_map, List.map_map]
        exact this

end Verif.RepDef
