import Verif.Cleanup.PropsMore
/-!
# C24: tags
-/
namespace Verif.Cleanup
open Verif.Naming (Name)

/-! ## Histories -/

/-- What a user takes tags to be: a map from names to versions. -/
abbrev Spec := (Name → Option Nat) × List Nat

def Spec.step (valid : Name → Bool) (s : Spec) : TagOp → Spec
  | .create t v =>
    if valid t = true ∧ s.1 t = none ∧ v ∈ s.2 then (fun x => if x = t then some v else s.1 x, s.2) else s
  | .update t v =>
    if valid t = true ∧ s.1 t ≠ none ∧ v ∈ s.2 then (fun x => if x = t then some v else s.1 x, s.2) else s
  | .delete t => if valid t = true then (fun x => if x = t then none else s.1 x, s.2) else s
  | .versions vs => (s.1, vs)

/-- The stored tags, as a map. -/
def TagSt.spec (s : TagSt) : Spec := (fun t => s.get (tagPath t), s.versions)

theorem spec_put (s : TagSt) (t : Name) (v : Nat) :
    (s.put (tagPath t) v).spec = (fun x => if x = t then some v else s.get (tagPath x), s.versions) := by
  refine Prod.ext (funext fun x => ?_) rfl
  show (s.put (tagPath t) v).get (tagPath x) = _
  by_cases h : x = t
  · subst h; simp [get_put_same]
  · rw [get_put_other _ _ (fun e => h (tagPath_inj e))]; simp [h]

theorem spec_remove (s : TagSt) (t : Name) :
    (s.remove (tagPath t)).spec = (fun x => if x = t then none else s.get (tagPath x), s.versions) := by
  refine Prod.ext (funext fun x => ?_) rfl
  show (s.remove (tagPath t)).get (tagPath x) = _
  by_cases h : x = t
  · subst h; simp [get_remove_same]
  · rw [get_remove_other _ (fun e => h (tagPath_inj e))]; simp [h]

theorem spec_step (uni : Char → Bool) (s : TagSt) (op : TagOp) :
    (s.step uni op).spec = s.spec.step (validRef uni) op := by
  have hs1 : ∀ t, s.spec.1 t = s.get (tagPath t) := fun _ => rfl
  have hs2 : s.spec.2 = s.versions := rfl
  cases op with
  | create t v =>
    simp only [TagSt.step, TagSt.create, Spec.step, hs1, hs2]
    cases hv : validRef uni t with
    | false => simp
    | true =>
      cases hg : s.get (tagPath t) with
      | some w => simp
      | none =>
        by_cases hm : v ∈ s.versions
        · simp only [Bool.not_true, Bool.false_eq_true, if_false, Option.isSome_none, if_pos hm]
          rw [if_pos ⟨trivial, trivial, hm⟩]
          exact spec_put s t v
        · simp [hm]
  | update t v =>
    simp only [TagSt.step, TagSt.update, Spec.step, hs1, hs2]
    cases hv : validRef uni t with
    | false => simp
    | true =>
      cases hg : s.get (tagPath t) with
      | none => simp
      | some w =>
        by_cases hm : v ∈ s.versions
        · simp only [Bool.not_true, Bool.false_eq_true, if_false, Option.isNone_some, if_pos hm]
          rw [if_pos ⟨trivial, by simp, hm⟩]
          exact spec_put s t v
        · simp [hm]
  | delete t =>
    simp only [TagSt.step, TagSt.delete, Spec.step, hs1, hs2]
    cases hv : validRef uni t with
    | false => simp
    | true =>
      cases hg : s.get (tagPath t) with
      | none =>
        simp only [Bool.not_true, Bool.false_eq_true, if_false, Option.isNone_none, if_true]
        refine Prod.ext (funext fun x => ?_) rfl
        show s.get (tagPath x) = if x = t then none else s.get (tagPath x)
        by_cases h : x = t
        · subst h; simp [hg]
        · simp [h]
      | some w =>
        simp only [Bool.not_true, Bool.false_eq_true, if_false, Option.isNone_some, if_true]
        exact spec_remove s t
  | versions vs => rfl

/-- C24: over every history the stored tags behave as a map from names to versions, and looking a tag up gives
what the map holds. -/
theorem C24_refines (uni : Char → Bool) (s : TagSt) (ops : List TagOp) :
    (s.runAll uni ops).spec = ops.foldl (Spec.step (validRef uni)) s.spec := by
  induction ops generalizing s with
  | nil => rfl
  | cons op ops ih =>
    show ((s.step uni op).runAll uni ops).spec = _
    rw [ih, spec_step]; rfl

theorem getVersion_ok (uni : Char → Bool) (s : TagSt) (t : Name) (v : Nat) :
    s.getVersion uni t = .ok v ↔ validRef uni t = true ∧ s.spec.1 t = some v := by
  unfold TagSt.getVersion TagSt.spec
  cases validRef uni t with
  | false => simp
  | true => cases h : s.get (tagPath t) <;> simp [h]

/-- C24: a tag that resolves to a version keeps doing so whatever happens to other tags and versions, until it is
updated or deleted itself. -/
theorem C24_stable (uni : Char → Bool) (s : TagSt) (t : Name) (v : Nat) (h : s.getVersion uni t = .ok v)
    (ops : List TagOp) (hop : ∀ op ∈ ops, (∀ w, op ≠ .update t w) ∧ op ≠ .delete t) :
    (s.runAll uni ops).getVersion uni t = .ok v := by
  induction ops generalizing s with
  | nil => exact h
  | cons op ops ih =>
    show ((s.step uni op).runAll uni ops).getVersion uni t = .ok v
    apply ih
    · rw [getVersion_ok] at h ⊢
      refine ⟨h.1, ?_⟩
      rw [spec_step]
      have ho := hop op (List.mem_cons_self ..)
      cases op with
      | create t' w =>
        simp only [Spec.step]
        split
        · rename_i hc
          have : t ≠ t' := fun e => by rw [← e, h.2] at hc; exact absurd hc.2.1 (by simp)
          simp [this, h.2]
        · exact h.2
      | update t' w =>
        simp only [Spec.step]
        split
        · have : t ≠ t' := fun e => ho.1 w (by rw [e])
          simp [this, h.2]
        · exact h.2
      | delete t' =>
        simp only [Spec.step]
        split
        · have : t ≠ t' := fun e => ho.2 (by rw [e])
          simp [this, h.2]
        · exact h.2
      | versions vs => exact h.2
    · exact fun o ho => hop o (List.mem_cons_of_mem _ ho)

/-- C24: creating, updating and deleting do what they say to the tag they name. -/
theorem C24_create (uni : Char → Bool) (s s' : TagSt) (t : Name) (v : Nat) (h : s.create uni t v = .ok s') :
    s'.getVersion uni t = .ok v ∧ v ∈ s.versions ∧ s.getVersion uni t = .error .notFound := by
  unfold TagSt.create at h
  split at h
  · cases h
  · rename_i hv
    split at h
    · cases h
    · rename_i hg
      split at h
      · rename_i hm
        cases h
        simp only [TagSt.getVersion, if_neg hv, get_put_same]
        have : s.get (tagPath t) = none := by simpa using hg
        simp [this, hm]
      · cases h

theorem C24_update (uni : Char → Bool) (s s' : TagSt) (t : Name) (v : Nat) (h : s.update uni t v = .ok s') :
    s'.getVersion uni t = .ok v ∧ v ∈ s.versions ∧ ∃ w, s.getVersion uni t = .ok w := by
  unfold TagSt.update at h
  split at h
  · cases h
  · rename_i hv
    split at h
    · cases h
    · rename_i hg
      split at h
      · rename_i hm
        cases h
        simp only [TagSt.getVersion, if_neg hv, get_put_same]
        cases hx : s.get (tagPath t) with
        | none => simp [hx] at hg
        | some w => exact ⟨trivial, hm, w, rfl⟩
      · cases h

theorem C24_delete (uni : Char → Bool) (s s' : TagSt) (t : Name) (h : s.delete uni t = .ok s') :
    s'.getVersion uni t = .error .notFound ∧ ∃ w, s.getVersion uni t = .ok w := by
  unfold TagSt.delete at h
  split at h
  · cases h
  · rename_i hv
    split at h
    · cases h
    · rename_i hg
      cases h
      simp only [TagSt.getVersion, if_neg hv, get_remove_same]
      cases hx : s.get (tagPath t) with
      | none => simp [hx] at hg
      | some w => exact ⟨trivial, w, rfl⟩

/-- C24: creating a tag that exists fails, and so does tagging a version that does not exist. -/
theorem C24_create_fails (uni : Char → Bool) (s : TagSt) (t : Name) (v : Nat) :
    ((∃ w, s.getVersion uni t = .ok w) → s.create uni t v = .error .conflict) ∧
    (v ∉ s.versions → ∀ s', s.create uni t v ≠ .ok s') ∧
    (v ∉ s.versions → ∀ s', s.update uni t v ≠ .ok s') := by
  refine ⟨?_, fun hv s' h => hv (C24_create uni s s' t v h).2.1, fun hv s' h => hv (C24_update uni s s' t v h).2.1⟩
  rintro ⟨w, h⟩
  rw [getVersion_ok] at h
  have h2 : s.get (tagPath t) = some w := h.2
  simp [TagSt.create, h.1, h2]

/-- C24: a call that fails changes no tag. -/
theorem C24_failed_call (uni : Char → Bool) (s : TagSt) (t : Name) (v : Nat) (e : TagErr)
    (h : s.create uni t v = .error e) : s.step uni (.create t v) = s := by
  simp [TagSt.step, h]

/-! ## Names -/

theorem encByte_noSlash (b : UInt8) : '/' ∉ encByte b := by
  unfold encByte
  split
  · rename_i h
    intro hx
    simp only [List.mem_singleton] at hx
    exact h.2.2 (by rw [← hx]; decide)
  · have hd : ∀ n, n < 16 → hexDigit n ≠ '/' := by decide
    have hb : b.toNat < 256 := b.toNat_lt
    simp only [List.mem_cons, List.not_mem_nil, or_false, not_or]
    exact ⟨by decide, Ne.symm (hd _ (by omega)), Ne.symm (hd _ (by omega))⟩

/-- C24: whatever the name, valid or not, the file of a tag lies directly in the tag directory: its last segment
has no separator and is neither `.` nor `..`. -/
theorem C24_inside (t : Name) : ∃ n : Name, tagPath t = [sRefs, sTags, n] ∧ '/' ∉ n ∧ n ≠ ['.'] ∧ n ≠ ['.', '.'] := by
  refine ⟨pathPart (t ++ eJson), rfl, ?_, ?_, ?_⟩
  · intro h
    obtain ⟨b, _, hb⟩ := List.mem_flatMap.1 h
    exact encByte_noSlash b hb
  all_goals
    intro h
    have hl : (pathPart (t ++ eJson)).getLast? = some 'n' := by
      have : pathPart (t ++ eJson) = pathPart t ++ pathPart eJson := by simp [pathPart]
      rw [this, show pathPart eJson = eJson from by decide +kernel, List.getLast?_append]
      rfl
    rw [h] at hl
    exact absurd hl (by decide)

theorem hasDots_of (a b : Name) : hasDots (a ++ '.' :: '.' :: b) = true := by
  induction a with
  | nil => simp [hasDots]
  | cons c a ih =>
    cases a with
    | nil => simp [hasDots]
    | cons d a => simp only [List.cons_append, hasDots, Bool.or_eq_true]; exact .inr ih

/-- C24: a name accepted as a tag has no separator, no white space or other special ASCII character, no `..`, and
does not begin or end with a dot. -/
theorem C24_names (uni : Char → Bool) (t : Name) (h : validRef uni t = true) :
    t ≠ [] ∧ (∀ c ∈ t, c.toNat < 128 → c.isAlphanum = true ∨ c = '.' ∨ c = '-' ∨ c = '_') ∧
    '/' ∉ t ∧ '\\' ∉ t ∧ (∀ a b : Name, t ≠ a ++ '.' :: '.' :: b) ∧ (∀ r, t ≠ '.' :: r) ∧ ∀ r, t ≠ r ++ ['.'] := by
  simp only [validRef, Bool.and_eq_true, Bool.not_eq_true', List.all_eq_true] at h
  obtain ⟨⟨⟨⟨⟨h1, h2⟩, h3⟩, h4⟩, h5⟩, h6⟩ := h
  have hc : ∀ c ∈ t, c.toNat < 128 → c.isAlphanum = true ∨ c = '.' ∨ c = '-' ∨ c = '_' := by
    intro c hc hlt
    have := h2 c hc
    simp only [alnum, if_pos hlt, Bool.or_eq_true, beq_iff_eq, or_assoc] at this
    exact this
  refine ⟨by rintro rfl; simp at h1, hc, ?_, ?_, ?_, ?_, ?_⟩
  · intro hx; exact absurd (hc _ hx (by decide)) (by decide)
  · intro hx; exact absurd (hc _ hx (by decide)) (by decide)
  · rintro a b rfl; rw [hasDots_of] at h6; cases h6
  · rintro r rfl; simp at h3
  · rintro r rfl; simp at h4

/-! ## Listing -/

/-- Every file in the tag directory belongs to a tag with an ASCII name, and no two to the same. -/
def AsciiTags (s : TagSt) : Prop :=
  (∀ e ∈ s.files, ∃ t : Name, e.1 = tagPath t ∧ t.all (fun c => decide (c.toNat < 128)) = true ∧ validRef (fun _ => false) t = true) ∧
  (s.files.map (·.1)).Nodup

theorem alnum_plain (c : Char) (hlt : c.toNat < 128)
    (h : c.isAlphanum = true ∨ c = '.' ∨ c = '-' ∨ c = '_') : plain c = true := by
  have key : ∀ n : Fin 128, ((Char.ofNat n).isAlphanum = true ∨ Char.ofNat n = '.' ∨ Char.ofNat n = '-' ∨ Char.ofNat n = '_') →
      plain (Char.ofNat n) = true := by decide +kernel
  have := key ⟨c.toNat, hlt⟩
  simp only [Char.ofNat_toNat] at this
  exact this h

theorem tag_plain {t : Name} (ha : t.all (fun c => decide (c.toNat < 128)) = true)
    (hv : validRef (fun _ => false) t = true) : pathPart (t ++ eJson) = t ++ eJson := by
  apply pathPart_plain
  intro c hc
  rcases List.mem_append.1 hc with h | h
  · have hlt : c.toNat < 128 := by simpa using (List.all_eq_true.1 ha) c h
    exact alnum_plain c hlt ((C24_names _ t hv).2.1 c h hlt)
  · have : ∀ c ∈ eJson, plain c = true := by decide
    exact this c h

theorem stripJson_append (t : Name) : stripJson (t ++ eJson) = some t := by
  have : eJson.isSuffixOf (t ++ eJson) = true := by
    rw [List.isSuffixOf_iff_suffix]; exact List.suffix_append ..
  simp [stripJson, this]

theorem readAll_ok (s : TagSt) : ∀ (l : List Name), (∀ t ∈ l, (s.get (tagPath t)).isSome = true) →
    ∃ r, s.readAll l = .ok r ∧ r.map (·.1) = l ∧ ∀ t v, (t, v) ∈ r ↔ t ∈ l ∧ s.get (tagPath t) = some v
  | [], _ => ⟨[], rfl, rfl, by simp⟩
  | t :: ts, h => by
    obtain ⟨r, h1, h2, h3⟩ := readAll_ok s ts (fun x hx => h x (List.mem_cons_of_mem _ hx))
    have hs := h t (List.mem_cons_self ..)
    cases hg : s.get (tagPath t) with
    | none => rw [hg] at hs; cases hs
    | some w =>
      refine ⟨(t, w) :: r, by simp [TagSt.readAll, hg, h1], by simp [h2], ?_⟩
      intro x v
      simp only [List.mem_cons, Prod.mk.injEq, h3]
      constructor
      · rintro (⟨rfl, rfl⟩ | ⟨ha, hb⟩)
        · exact ⟨.inl rfl, hg⟩
        · exact ⟨.inr ha, hb⟩
      · rintro ⟨rfl | ha, hb⟩
        · exact .inl ⟨rfl, by rw [hg] at hb; exact (Option.some.inj hb).symm⟩
        · exact .inr ⟨ha, hb⟩

theorem mem_names {s : TagSt} (ha : AsciiTags s) (t : Name) :
    t ∈ s.names.filterMap stripJson ↔ ∃ v, (tagPath t, v) ∈ s.files := by
  simp only [TagSt.names, List.mem_filterMap]
  constructor
  · rintro ⟨n, ⟨e, he, hn⟩, hs⟩
    obtain ⟨t', h1, h2, h3⟩ := ha.1 e he
    rw [h1] at hn
    simp only [tagPath, and_self, if_true, Option.some.injEq] at hn
    rw [tag_plain h2 h3] at hn
    rw [← hn, stripJson_append] at hs
    cases hs
    exact ⟨e.2, by rw [← h1]; exact he⟩
  · rintro ⟨v, hv⟩
    obtain ⟨t', h1, h2, h3⟩ := ha.1 _ hv
    have := tagPath_inj h1
    subst this
    refine ⟨t ++ eJson, ⟨_, hv, ?_⟩, stripJson_append t⟩
    simp only [tagPath, and_self, if_true]
    rw [tag_plain h2 h3]

theorem get_isSome_of_mem {s : TagSt} {p : Path} {v : Nat} (h : (p, v) ∈ s.files) : (s.get p).isSome = true := by
  simp only [TagSt.get, Option.isSome_map, List.find?_isSome]
  exact ⟨_, h, by simp⟩

theorem mem_of_get {s : TagSt} {p : Path} {v : Nat} (h : s.get p = some v) : ∃ v, (p, v) ∈ s.files := by
  simp only [TagSt.get, Option.map_eq_some_iff] at h
  obtain ⟨e, h1, h2⟩ := h
  have hm := List.mem_of_find?_eq_some h1
  have := List.find?_some h1
  simp only [decide_eq_true_eq] at this
  exact ⟨e.2, by rw [← this]; exact hm⟩

/-- Histories that only use ASCII names leave only such tags. -/
theorem ascii_step (uni : Char → Bool) (s : TagSt) (h : AsciiTags s) (op : TagOp)
    (hop : ∀ t v, op = .create t v ∨ op = .update t v → t.all (fun c => decide (c.toNat < 128)) = true) :
    AsciiTags (s.step uni op) := by
  have hput : ∀ t v, t.all (fun c => decide (c.toNat < 128)) = true → validRef uni t = true →
      AsciiTags (s.put (tagPath t) v) := by
    intro t v ha hv
    have hv' : validRef (fun _ => false) t = true := by
      simp only [validRef, Bool.and_eq_true, List.all_eq_true] at hv ⊢
      obtain ⟨⟨⟨⟨⟨h1, h2⟩, h3⟩, h4⟩, h5⟩, h6⟩ := hv
      refine ⟨⟨⟨⟨⟨h1, ?_⟩, h3⟩, h4⟩, h5⟩, h6⟩
      intro c hc
      have hlt : c.toNat < 128 := by simpa using (List.all_eq_true.1 ha) c hc
      have := h2 c hc
      simpa [alnum, hlt] using this
    refine ⟨?_, ?_⟩
    · intro e he
      simp only [TagSt.put, List.mem_cons] at he
      rcases he with rfl | he
      · exact ⟨t, rfl, ha, hv'⟩
      · exact h.1 e (List.mem_filter.1 he).1
    · simp only [TagSt.put, List.map_cons, List.nodup_cons]
      refine ⟨?_, ?_⟩
      · intro hx
        obtain ⟨e, he, hq⟩ := List.mem_map.1 hx
        have := (List.mem_filter.1 he).2
        simp [hq] at this
      · exact h.2.sublist (List.Sublist.map _ List.filter_sublist)
  cases op with
  | create t v =>
    show AsciiTags (match s.create uni t v with | .ok s' => s' | .error _ => s)
    unfold TagSt.create
    split
    · rename_i s' he
      split at he
      · cases he
      · rename_i hv
        split at he
        · cases he
        · split at he
          · cases he
            exact hput t v (hop t v (.inl rfl)) (by simpa using hv)
          · cases he
    · exact h
  | update t v =>
    show AsciiTags (match s.update uni t v with | .ok s' => s' | .error _ => s)
    unfold TagSt.update
    split
    · rename_i s' he
      split at he
      · cases he
      · rename_i hv
        split at he
        · cases he
        · split at he
          · cases he
            exact hput t v (hop t v (.inr rfl)) (by simpa using hv)
          · cases he
    · exact h
  | delete t =>
    show AsciiTags (match s.delete uni t with | .ok s' => s' | .error _ => s)
    unfold TagSt.delete
    split
    · rename_i s' he
      split at he
      · cases he
      · split at he
        · cases he
        · cases he
          exact ⟨fun e he => h.1 e (List.mem_filter.1 he).1, h.2.sublist (List.Sublist.map _ List.filter_sublist)⟩
    · exact h
  | versions vs => exact h

theorem ascii_run (uni : Char → Bool) (s : TagSt) (h : AsciiTags s) (ops : List TagOp)
    (hop : ∀ op ∈ ops, ∀ t v, op = .create t v ∨ op = .update t v → t.all (fun c => decide (c.toNat < 128)) = true) :
    AsciiTags (s.runAll uni ops) := by
  induction ops generalizing s with
  | nil => exact h
  | cons op ops ih =>
    exact ih _ (ascii_step uni s h op (hop op (List.mem_cons_self ..))) (fun o ho => hop o (List.mem_cons_of_mem _ ho))

/-- The list of tags is exactly the tags that resolve, over every history. -/
def C24_list_statement : Prop :=
  ∀ (uni : Char → Bool) (vs : List Nat) (ops : List TagOp),
    ∃ r, ((TagSt.mk [] vs).runAll uni ops).list = .ok r ∧ (r.map (·.1)).Nodup ∧
      ∀ t v, (t, v) ∈ r ↔ ((TagSt.mk [] vs).runAll uni ops).getVersion uni t = .ok v

/-- C24, listing, for histories whose tags have ASCII names. -/
theorem C24_list_partial (uni : Char → Bool) (vs : List Nat) (ops : List TagOp)
    (hop : ∀ op ∈ ops, ∀ t v, op = .create t v ∨ op = .update t v → t.all (fun c => decide (c.toNat < 128)) = true) :
    ∃ r, ((TagSt.mk [] vs).runAll uni ops).list = .ok r ∧ (r.map (·.1)).Nodup ∧
      ∀ t v, (t, v) ∈ r ↔ ((TagSt.mk [] vs).runAll uni ops).getVersion uni t = .ok v := by
  have ha : AsciiTags ((TagSt.mk [] vs).runAll uni ops) :=
    ascii_run uni _ ⟨by simp, by simp⟩ ops hop
  generalize (TagSt.mk [] vs).runAll uni ops = s at ha
  obtain ⟨r, h1, h2, h3⟩ := readAll_ok s (s.names.filterMap stripJson) (by
    intro t ht
    obtain ⟨v, hv⟩ := (mem_names ha t).1 ht
    exact get_isSome_of_mem hv)
  refine ⟨r, h1, ?_, ?_⟩
  · rw [h2]
    have e : s.names.filterMap stripJson = s.files.filterMap (fun e => (e.1.getLast?.bind stripJson)) := by
      rw [TagSt.names, List.filterMap_filterMap]
      have : ∀ l : List (Path × Nat), (∀ e ∈ l, e ∈ s.files) →
          l.filterMap (fun x => ((match x.1 with
            | [a, b, n] => if a = sRefs ∧ b = sTags then some n else none
            | _ => none : Option Name)).bind stripJson) = l.filterMap (fun e => (e.1.getLast?.bind stripJson)) := by
        intro l hl
        induction l with
        | nil => rfl
        | cons e l ih =>
          obtain ⟨t, ht, _⟩ := ha.1 e (hl e (List.mem_cons_self ..))
          simp only [List.filterMap_cons, ih (fun x hx => hl x (List.mem_cons_of_mem _ hx)), ht, tagPath, and_self,
            if_true, List.getLast?_cons_cons, List.getLast?_singleton]
      exact this s.files (fun e he => he)
    rw [e]
    have : ∀ l : List (Path × Nat), (∀ e ∈ l, e ∈ s.files) → (l.map (·.1)).Nodup →
        (l.filterMap (fun e => (e.1.getLast?.bind stripJson))).Nodup := by
      intro l
      induction l with
      | nil => intros; exact List.nodup_nil
      | cons e l ih =>
        intro hl hn
        simp only [List.map_cons, List.nodup_cons] at hn
        obtain ⟨t, ht, hta, htv⟩ := ha.1 e (hl e (List.mem_cons_self ..))
        have hlast : (e.1.getLast?.bind stripJson) = some t := by
          rw [ht]
          simp only [tagPath, List.getLast?_cons_cons, List.getLast?_singleton, tag_plain hta htv]
          exact stripJson_append t
        simp only [List.filterMap_cons, hlast, List.nodup_cons]
        refine ⟨?_, ih (fun x hx => hl x (List.mem_cons_of_mem _ hx)) hn.2⟩
        intro hx
        obtain ⟨e', he', hs⟩ := List.mem_filterMap.1 hx
        obtain ⟨t', ht', hta', htv'⟩ := ha.1 e' (hl e' (List.mem_cons_of_mem _ he'))
        rw [ht'] at hs
        simp only [tagPath, List.getLast?_cons_cons, List.getLast?_singleton, tag_plain hta' htv',
          Option.bind_some, stripJson_append, Option.some.injEq] at hs
        subst hs
        exact hn.1 (List.mem_map.2 ⟨e', he', ht'.trans ht.symm⟩)
    exact this s.files (fun e he => he) ha.2
  · intro t v
    rw [h3, getVersion_ok, mem_names ha]
    constructor
    · rintro ⟨⟨w, hw⟩, hg⟩
      obtain ⟨t', e, hta, htv⟩ := ha.1 _ hw
      have := tagPath_inj e
      subst this
      refine ⟨?_, hg⟩
      simp only [validRef, Bool.and_eq_true, List.all_eq_true] at htv ⊢
      obtain ⟨⟨⟨⟨⟨q1, q2⟩, q3⟩, q4⟩, q5⟩, q6⟩ := htv
      refine ⟨⟨⟨⟨⟨q1, ?_⟩, q3⟩, q4⟩, q5⟩, q6⟩
      intro c hc
      have hlt : c.toNat < 128 := by simpa using (List.all_eq_true.1 hta) c hc
      have := q2 c hc
      simpa [alnum, hlt] using this
    · rintro ⟨_, hg⟩
      exact ⟨mem_of_get hg, hg⟩

/-- A tag with a letter outside ASCII: its file name is percent-encoded, the listing takes the encoded name for
the tag and encodes it again, so that `list` — and with it cleanup — fails until the tag is deleted. -/
theorem C24_list_violated : ¬ C24_list_statement := by
  intro h
  obtain ⟨r, h1, _⟩ := h (fun _ => true) [1] [.create ['é'] 1]
  have : (match ((TagSt.mk [] [1]).runAll (fun _ => true) [.create ['é'] 1]).list with
    | .ok _ => false | .error _ => true) = true := by decide +kernel
  rw [h1] at this
  cases this

/-! ## Two creators -/

/-- When two processes create the same tag, at most one is told it succeeded. -/
def C24_race_statement : Prop :=
  ∀ (uni : Char → Bool) (s : TagSt) (t : Name) (v w : Nat) (sched : List Bool),
    let r := twoCreators uni sched (s, ⟨t, v, .start⟩, ⟨t, w, .start⟩)
    ¬ (r.2.1.pc = .ok ∧ r.2.2.pc = .ok)

/-- The check and the write are separate operations, and the write overwrites. -/
theorem C24_race_violated : ¬ C24_race_statement := by
  intro h
  exact h (fun _ => false) ⟨[], [1, 2]⟩ ['t'] 1 2 [true, false, true, false] (by decide +kernel)

/-- C24 with two creators: if the first has finished when the second begins, the second fails and the first's
version stands. -/
theorem C24_race_partial (uni : Char → Bool) (s : TagSt) (t : Name) (v w : Nat) (hv : ∃ s', s.create uni t v = .ok s')
    (sched : List Bool) :
    let r := twoCreators uni (true :: true :: false :: sched) (s, ⟨t, v, .start⟩, ⟨t, w, .start⟩)
    r.2.1.pc = .ok ∧ r.2.2.pc = .failed ∧ r.1.getVersion uni t = .ok v := by
  obtain ⟨s', hs⟩ := hv
  have hs' : s' = s.put (tagPath t) v := by
    unfold TagSt.create at hs
    repeat' split at hs
    all_goals first | cases hs; done | (cases hs; rfl)
  have hget := (C24_create uni s s' t v hs).1
  have hconf := (C24_create_fails uni s' t w).1 ⟨v, hget⟩
  rw [hs'] at hget hconf
  have fin : ∀ (sched : List Bool) (s : TagSt) (a b : Creator), a.pc = .ok → b.pc = .failed →
      twoCreators uni sched (s, a, b) = (s, a, b) := by
    intro sched
    induction sched with
    | nil => intros; rfl
    | cons x r ih =>
      intro s a b ha hb
      cases x <;> simp only [twoCreators, Creator.step, ha, hb] <;> exact ih s a b ha hb
  have e : twoCreators uni (true :: true :: false :: sched) (s, ⟨t, v, .start⟩, ⟨t, w, .start⟩) =
      (s.put (tagPath t) v, ⟨t, v, .ok⟩, ⟨t, w, .failed⟩) := by
    simp only [twoCreators, Creator.step, hs, hconf]
    exact fin _ _ _ _ rfl rfl
  simp only [e]
  exact ⟨trivial, trivial, hget⟩

/-! A history that meets the hypotheses: create, retag, a conflicting create, a deletion of another tag. -/
private def xops : List TagOp :=
  [.create ['a'] 1, .create ['b', '.', '1'] 2, .create ['a'] 2, .update ['a'] 3, .delete ['b', '.', '1'], .create ['/'] 1]

example : ∃ r, ((TagSt.mk [] [1, 2, 3]).runAll (fun _ => false) xops).list = .ok r ∧ (r.map (·.1)).Nodup ∧
    ∀ t v, (t, v) ∈ r ↔ ((TagSt.mk [] [1, 2, 3]).runAll (fun _ => false) xops).getVersion (fun _ => false) t = .ok v :=
  C24_list_partial _ _ _ (by
    intro op hop t v h
    simp only [xops, List.mem_cons, List.not_mem_nil, or_false] at hop
    rcases hop with rfl | rfl | rfl | rfl | rfl | rfl <;> rcases h with h | h <;> cases h <;> decide)

example : (match ((TagSt.mk [] [1, 2, 3]).runAll (fun _ => false) xops).getVersion (fun _ => false) ['a'] with
    | .ok v => v == 3 | .error _ => false) = true := by decide +kernel

example : (match ((TagSt.mk [] [1, 2, 3]).runAll (fun _ => false) (xops.take 1)).runAll (fun _ => false)
    [.create ['a'] 2, .delete ['b']] |>.getVersion (fun _ => false) ['a'] with
    | .ok v => v == 1 | .error _ => false) = true := by decide +kernel

end Verif.Cleanup
