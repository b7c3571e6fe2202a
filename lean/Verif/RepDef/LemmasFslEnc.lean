import Verif.RepDef.LemmasFsl
/-!
# Lemmas on levels: writing and reading fixed size lists
-/
namespace Verif.RepDef
open Verif.Mini (Layer RepDefs)

/-! ### Writing -/

/-- What the encoders collect from an array without lists, the innermost layer first. -/
def rawsOf {V : Type} : List Kind → Arr V → List Raw
  | [], a => [.validity a.top a.len]
  | .fsl d :: ks, a => rawsOf ks a.child ++ [.fsl a.top d a.len]
  | _ :: ks, a => rawsOf ks a.child ++ [.validity a.top a.len]

theorem rawsOf_length {V : Type} : ∀ (ks : List Kind) (a : Arr V), (rawsOf ks a).length = ks.length + 1
  | [], _ => rfl
  | .fsl _ :: ks, a => by simp [rawsOf, rawsOf_length ks]
  | .struct :: ks, a => by simp [rawsOf, rawsOf_length ks]
  | .list :: ks, a => by simp [rawsOf, rawsOf_length ks]

theorem collect_fsl {V : Type} : ∀ (ks : List Kind), NoLists ks → ∀ (a : Arr V) (b : Builder), a.Ok ks → b.fits a.len = true →
    collect ks a b = some (⟨b.raws ++ (rawsOf ks a).reverse, some a.leaves.length⟩, a.leaves)
  | [], _, a, b, h, hf => by
    cases a <;> simp only [Arr.Ok] at h
    rename_i vals bits
    simp only [collect, Arr.leaves, Arr.len] at *
    rw [addBits_ok b bits _ h hf]
    rfl
  | .list :: ks, hn, _, _, _, _ => absurd rfl (hn .list (by simp))
  | .struct :: ks, hn, a, b, h, hf => by
    have hn' : NoLists ks := fun x hx => hn x (by simp [hx])
    cases a <;> simp only [Arr.Ok] at h
    rename_i c bits
    simp only [collect]
    rw [addBits_ok b bits c.len h.2 hf]
    simp only
    rw [collect_fsl ks hn' c _ h.1 (by simp [Builder.fits])]
    simp [rawsOf, Arr.leaves, Arr.top, Arr.child, Arr.len]
  | .fsl d :: ks, hn, a, b, h, hf => by
    have hn' : NoLists ks := fun x hx => hn x (by simp [hx])
    cases a <;> simp only [Arr.Ok] at h
    rename_i d' c bits
    obtain ⟨h1, h2, rfl, h4, h5⟩ := h
    simp only [collect, Builder.addFsl]
    simp only [Arr.len] at hf
    rw [if_pos hf]
    simp only
    rw [collect_fsl ks hn' c _ h1 (by simp [Builder.fits, Nat.div_mul_cancel (Nat.dvd_of_mod_eq_zero h5)])]
    simp [rawsOf, Arr.leaves, Arr.top, Arr.child, Arr.len]

/-- The layers of arrays without lists put together, the innermost first. -/
def jointRaws {V : Type} : List Kind → List (Arr V) → List Raw
  | [], arrs => [.validity (tops arrs) (arrs.map Arr.len).sum]
  | .fsl d :: ks, arrs => jointRaws ks (arrs.map Arr.child) ++ [.fsl (tops arrs) d (arrs.map Arr.len).sum]
  | _ :: ks, arrs => jointRaws ks (arrs.map Arr.child) ++ [.validity (tops arrs) (arrs.map Arr.len).sum]

theorem jointRaws_length {V : Type} : ∀ (ks : List Kind) (arrs : List (Arr V)), (jointRaws ks arrs).length = ks.length + 1
  | [], _ => rfl
  | .fsl _ :: ks, a => by simp [jointRaws, jointRaws_length ks]
  | .struct :: ks, a => by simp [jointRaws, jointRaws_length ks]
  | .list :: ks, a => by simp [jointRaws, jointRaws_length ks]

theorem concatLayers_fsl (d : Nat) (bs : List (Option (List Bool) × Nat)) (hne : bs ≠ []) :
    concatLayers (bs.map fun x => .fsl x.1 d x.2) = some (.fsl (joinBits bs) d (bs.map (·.2)).sum) := by
  cases bs with
  | nil => exact absurd rfl hne
  | cons b bs =>
    have hall : ((b :: bs).map fun x => Raw.fsl x.1 d x.2).all Raw.isFsl = true := by
      rw [List.all_eq_true]; intro r hr
      obtain ⟨x, _, rfl⟩ := List.mem_map.mp hr; rfl
    rw [List.map_cons, concatLayers, ← List.map_cons (f := fun x : Option (List Bool) × Nat => Raw.fsl x.1 d x.2), if_pos hall]
    congr 2
    · unfold concatBits joinBits
      rw [List.any_map, List.flatMap_map]
      rfl
    · rw [List.map_map, show (Raw.dim ∘ fun x : Option (List Bool) × Nat => Raw.fsl x.1 d x.2) = fun _ => d from rfl, List.map_const', List.length_cons,
        List.replicate_succ']
      simp
    · rw [List.map_map]; rfl

theorem combined_rows {V : Type} : ∀ (ks : List Kind) (arrs : List (Arr V)), arrs ≠ [] → ∀ j, j < ks.length + 1 →
    ∃ ls, arrs.mapM (fun a => (rawsOf ks a)[j]?) = some ls ∧ concatLayers ls = (jointRaws ks arrs)[j]? := by
  have last : ∀ (f : Arr V → List Raw) (g : Arr V → Raw) (out : List Raw) (o : Raw) (m : Nat) (arrs : List (Arr V)),
      (∀ a, (f a).length = m) → out.length = m →
      (∀ j, j < m → ∃ ls, arrs.mapM (fun a => (f a)[j]?) = some ls ∧ concatLayers ls = out[j]?) → concatLayers (arrs.map g) = some o →
      ∀ j, j < m + 1 → ∃ ls, arrs.mapM (fun a => (f a ++ [g a])[j]?) = some ls ∧ concatLayers ls = (out ++ [o])[j]? := by
    intro f g out o m arrs hf ho hi hl j hj
    by_cases hjm : j < m
    · obtain ⟨ls, h1, h2⟩ := hi j hjm
      refine ⟨ls, ?_, ?_⟩
      · rw [← h1]
        congr 1
        funext a
        rw [List.getElem?_append_left (by rw [hf]; exact hjm)]
      · rw [h2, List.getElem?_append_left (by rw [ho]; exact hjm)]
    · have hjm : j = m := by omega
      subst hjm
      refine ⟨arrs.map g, ?_, ?_⟩
      · apply mapM_map_some
        intro a _
        rw [List.getElem?_append_right (by rw [hf]; omega), hf]; simp
      · rw [hl, List.getElem?_append_right (by rw [ho]; omega), ho]; simp
  have hv : ∀ arrs : List (Arr V), concatLayers (arrs.map fun a => Raw.validity a.top a.len) = some (.validity (tops arrs) (arrs.map Arr.len).sum) := by
    intro arrs
    have := concatLayers_validity (arrs.map fun a => (a.top, a.len))
    rw [List.map_map, List.map_map] at this
    exact this
  have hfs : ∀ (d : Nat) (arrs : List (Arr V)), arrs ≠ [] →
      concatLayers (arrs.map fun a => Raw.fsl a.top d a.len) = some (.fsl (tops arrs) d (arrs.map Arr.len).sum) := by
    intro d arrs hne
    have := concatLayers_fsl d (arrs.map fun a => (a.top, a.len)) (by simpa using hne)
    rw [List.map_map, List.map_map] at this
    exact this
  intro ks
  induction ks with
  | nil =>
    intro arrs _ j hj
    have hj0 : j = 0 := by simpa using hj
    subst hj0
    refine ⟨arrs.map fun a => Raw.validity a.top a.len, ?_, ?_⟩
    · apply mapM_map_some; intro a _; rfl
    · rw [hv]; rfl
  | cons k ks ih =>
    intro arrs hne
    have ihc : ∀ j, j < ks.length + 1 → ∃ ls, arrs.mapM (fun a => (rawsOf ks a.child)[j]?) = some ls ∧
        concatLayers ls = (jointRaws ks (arrs.map Arr.child))[j]? := by
      intro j hj
      obtain ⟨ls, h1, h2⟩ := ih (arrs.map Arr.child) (by simpa using hne) j hj
      rw [List.mapM_map] at h1
      exact ⟨ls, h1, h2⟩
    cases k with
    | struct =>
      exact last (fun a => rawsOf ks a.child) (fun a => .validity a.top a.len) _ _ (ks.length + 1) arrs (fun a => rawsOf_length ks _)
        (jointRaws_length ks _) ihc (hv arrs)
    | list =>
      exact last (fun a => rawsOf ks a.child) (fun a => .validity a.top a.len) _ _ (ks.length + 1) arrs (fun a => rawsOf_length ks _)
        (jointRaws_length ks _) ihc (hv arrs)
    | fsl d =>
      exact last (fun a => rawsOf ks a.child) (fun a => .fsl a.top d a.len) _ _ (ks.length + 1) arrs (fun a => rawsOf_length ks _)
        (jointRaws_length ks _) ihc (hfs d arrs hne)

theorem spread_isSome (m : Nat) (b : Option (List Bool)) : (spread m b).isSome = b.isSome := by cases b <;> rfl

/-- The layers recorded, with the levels of all of them. -/
theorem recordAll_rows {V : Type} : ∀ (ks : List Kind), NoLists ks → ∀ (arrs : List (Arr V)) (c : Ctx), c.last = none → c.mult = 1 →
    ((jointBits ks arrs).any Option.isSome = true → c.defs ≠ []) →
    Ctx.recordAll (jointRaws ks arrs) c = some { c with
      layers := c.layers ++ jointLayers ks arrs, mult := width ks,
      defs := markAll (jointBits ks arrs) c.curDef c.defs, curDef := c.curDef + defSum (jointLayers ks arrs),
      hasNulls := c.hasNulls || (jointBits ks arrs).any Option.isSome } := by
  have one : ∀ (r : Raw) (b : Option (List Bool)) (m : Nat) (c : Ctx), c.last = none → (b.isSome = true → c.defs ≠ []) →
      c.record r = Ctx.recordBits { c with mult := m } b →
      Ctx.recordAll [r] c = some { c with
        layers := c.layers ++ [bitLayer b], mult := m,
        defs := (match spread m b with | none => c.defs | some x => markNulls c.curDef c.defs x), curDef := c.curDef + (bitLayer b).defLevels,
        hasNulls := c.hasNulls || b.isSome } := by
    intro r b m c hl hd hr
    rw [Ctx.recordAll, hr]
    cases b with
    | none => simp [Ctx.recordBits, Ctx.recordAll, Ctx.checkout, bitLayer, spread]
    | some bs =>
      have hne := hd rfl
      simp [Ctx.recordBits, Ctx.recordAll, Ctx.checkout, Ctx.doRecord, hl, hne, bitLayer, spread]
  intro ks
  induction ks with
  | nil =>
    intro hn arrs c hl hm hd
    have hc : { c with mult := 1 } = c := by cases c; simp_all
    have := one (.validity (tops arrs) (arrs.map Arr.len).sum) (tops arrs) 1 c hl (fun h => hd (by simpa [jointBits] using h)) (by rw [hc]; rfl)
    rw [spread_one] at this
    rw [jointRaws, this]
    cases ht : tops arrs <;> simp [jointLayers, jointBits, markAll, defSum, width, ht]
  | cons k ks ih =>
    intro hn arrs c hl hm hd
    have hn' : NoLists ks := fun x hx => hn x (by simp [hx])
    have hda : ∀ b : Bool, ((jointBits ks (arrs.map Arr.child)).any Option.isSome || b) = true → b = (tops arrs).isSome → c.defs ≠ [] := by
      intro b h hb
      apply hd
      rw [jointBits, List.any_append, List.any_cons, List.any_nil, spread_isSome, ← hb]
      simpa using h
    have hi := ih hn' (arrs.map Arr.child) c hl hm (fun h => hda (tops arrs).isSome (by rw [h]; rfl) rfl)
    have fin : ∀ r : Raw, jointRaws (k :: ks) arrs = jointRaws ks (arrs.map Arr.child) ++ [r] →
        (∀ c' : Ctx, c'.mult = width ks → c'.record r = Ctx.recordBits { c' with mult := width (k :: ks) } (tops arrs)) →
        Ctx.recordAll (jointRaws (k :: ks) arrs) c = some { c with
          layers := c.layers ++ jointLayers (k :: ks) arrs, mult := width (k :: ks),
          defs := markAll (jointBits (k :: ks) arrs) c.curDef c.defs, curDef := c.curDef + defSum (jointLayers (k :: ks) arrs),
          hasNulls := c.hasNulls || (jointBits (k :: ks) arrs).any Option.isSome } := by
      intro r hr hrec
      rw [hr, recordAll_append, hi, Option.bind_some]
      have := one r (tops arrs) (width (k :: ks)) { c with
        layers := c.layers ++ jointLayers ks (arrs.map Arr.child), mult := width ks,
        defs := markAll (jointBits ks (arrs.map Arr.child)) c.curDef c.defs, curDef := c.curDef + defSum (jointLayers ks (arrs.map Arr.child)),
        hasNulls := c.hasNulls || (jointBits ks (arrs.map Arr.child)).any Option.isSome } hl (by
          intro h h0
          simp only at h0
          have h1 := congrArg List.length h0
          rw [markAll_length] at h1
          exact hda true (by simp) h.symm (List.length_eq_zero_iff.mp h1)) (hrec _ rfl)
      rw [this]
      simp only [jointLayers, jointBits, List.map_append, List.map_cons, List.map_nil, bitLayer_spread, List.any_append, List.any_cons, List.any_nil,
        spread_isSome, Bool.or_false, Bool.or_assoc, List.append_assoc, markAll_snoc, Option.some.injEq, Ctx.mk.injEq, true_and, and_true]
      cases tops arrs <;> simp [spread, defSum, Nat.add_assoc]
    cases k with
    | list => exact absurd rfl (hn .list (by simp))
    | struct =>
      refine fin _ rfl ?_
      intro c' hc'
      have : { c' with mult := width (.struct :: ks) } = c' := by
        cases c'; simp only [Ctx.mk.injEq, true_and, and_true]; exact hc'.symm
      rw [this]
      rfl
    | fsl d =>
      refine fin _ rfl ?_
      intro c' hc'
      simp only [Ctx.record, hc', width, Nat.mul_comm]

theorem top_any {V : Type} : ∀ (ks : List Kind) (arrs : List (Arr V)),
    (arrs.any fun a => (rawsOf ks a).any Raw.hasNulls) = (jointBits ks arrs).any Option.isSome := by
  have ht : ∀ arrs : List (Arr V), (tops arrs).isSome = arrs.any fun a => a.top.isSome := by
    intro arrs
    unfold tops joinBits
    rw [List.any_map]
    rw [show ((fun x : Option (List Bool) × Nat => x.1.isSome) ∘ fun a : Arr V => (a.top, a.len)) = fun a => a.top.isSome from rfl]
    cases h : (arrs.any fun a => a.top.isSome) <;> simp
  have hor : ∀ (f g : Arr V → Bool) (arrs : List (Arr V)), (arrs.any fun a => f a || g a) = (arrs.any f || arrs.any g) := by
    intro f g arrs
    induction arrs with
    | nil => rfl
    | cons a arrs ih =>
      simp only [List.any_cons, ih]
      cases f a <;> cases g a <;> simp
  intro ks
  induction ks with
  | nil => intro arrs; simp [rawsOf, jointBits, Raw.hasNulls, ht]
  | cons k ks ih =>
    intro arrs
    have := ih (arrs.map Arr.child)
    rw [List.any_map] at this
    cases k <;>
    · simp only [rawsOf, jointBits, List.any_append, List.any_cons, List.any_nil, Bool.or_false, spread_isSome, ht, hor, ← this, Raw.hasNulls]
      rfl

/-- The levels of a page of a column without lists. -/
theorem encode_rows {V : Type} (ks : List Kind) (hn : NoLists ks) (arrs : List (Arr V)) (hne : arrs ≠ []) (hok : ∀ a ∈ arrs, a.Ok ks)
    (hlen : 0 < (arrs.map Arr.len).sum) :
    encode ks arrs = some (⟨none, if (jointBits ks arrs).any Option.isSome then some (jointLevels ks arrs) else none, jointLayers ks arrs⟩,
      arrs.flatMap Arr.leaves) := by
  have hc : arrs.mapM (fun a => collect ks a Builder.empty) = some (arrs.map fun a => ((⟨(rawsOf ks a).reverse, some a.leaves.length⟩ : Builder), a.leaves)) := by
    apply mapM_map_some
    intro a ha
    rw [collect_fsl ks hn a _ (hok a ha) rfl]
    rfl
  unfold encode
  rw [hc]
  simp only [List.map_map, List.flatMap_map]
  suffices hs : serialize (arrs.map fun a => (⟨(rawsOf ks a).reverse, some a.leaves.length⟩ : Builder)) =
      some ⟨none, if (jointBits ks arrs).any Option.isSome then some (jointLevels ks arrs) else none, jointLayers ks arrs⟩ by
    rw [show ((fun x : Builder × List V => x.1) ∘ fun a => ((⟨(rawsOf ks a).reverse, some a.leaves.length⟩ : Builder), a.leaves)) =
      fun a => ⟨(rawsOf ks a).reverse, some a.leaves.length⟩ from rfl, hs]
    rfl
  have hM : 0 < width ks := by
    cases arrs with
    | nil => exact absurd rfl hne
    | cons a arrs => exact width_pos ks hn ⟨a, hok a (by simp)⟩
  have hnul : ∀ (f : Raw → Bool), (∀ r, f r = true → r.hasNulls = true) → ∀ a : Arr V, (rawsOf ks a).any f = true → (rawsOf ks a).any Raw.hasNulls = true := by
    intro f h a ha
    rw [List.any_eq_true] at ha ⊢
    obtain ⟨r, hr, hfr⟩ := ha
    exact ⟨r, hr, h r hfr⟩
  have hkind : ∀ (ks : List Kind) (a : Arr V), ∀ r ∈ rawsOf ks a, r.isValidity = true ∨ r.isFsl = true := by
    intro ks
    induction ks with
    | nil => intro a r hr; rw [rawsOf, List.mem_singleton] at hr; subst hr; exact Or.inl rfl
    | cons k ks ih =>
      intro a r hr
      cases k <;>
      · simp only [rawsOf, List.mem_append, List.mem_singleton] at hr
        rcases hr with hr | rfl
        · exact ih _ r hr
        · first | exact Or.inl rfl | exact Or.inr rfl
  generalize hB : (fun a : Arr V => (⟨(rawsOf ks a).reverse, some a.leaves.length⟩ : Builder)) = B
  have hBr : ∀ a, (B a).raws = (rawsOf ks a).reverse := by intro a; rw [← hB]
  have hBn : ∀ a, (B a).hasNulls = (rawsOf ks a).any Raw.hasNulls := by
    intro a
    unfold Builder.hasNulls
    rw [hBr, List.any_reverse]
    rw [Bool.eq_iff_iff, List.any_eq_true, List.any_eq_true]
    constructor
    · rintro ⟨r, hr, h⟩
      refine ⟨r, hr, ?_⟩
      cases r with
      | offsets d => simp at h
      | validity b n => cases b <;> simp_all [Raw.hasNulls]
      | fsl b d n => cases b <;> simp_all [Raw.hasNulls]
    · rintro ⟨r, hr, h⟩
      refine ⟨r, hr, ?_⟩
      cases r with
      | offsets d => rcases hkind ks a _ hr with h0 | h0 <;> simp [Raw.isValidity, Raw.isFsl] at h0
      | validity b n => cases b <;> simp_all [Raw.hasNulls]
      | fsl b d n => cases b <;> simp_all [Raw.hasNulls]
  have hBo : ∀ a, (B a).hasOffsets = false := by
    intro a
    unfold Builder.hasOffsets
    rw [hBr, List.any_reverse, List.any_eq_false]
    intro r hr
    rcases hkind ks a r hr with h | h
    · cases r <;> simp_all [Raw.isValidity]
    · cases r <;> simp_all [Raw.isFsl]
  have hBl : arrs.mapM (Builder.len ∘ B) = some (arrs.map fun a => a.leaves.length) := by
    apply mapM_map_some; intro a _; rw [← hB]; rfl
  have hsum : (arrs.map fun a => a.leaves.length).sum = (arrs.map Arr.len).sum * width ks := by
    rw [← leaves_page ks hn arrs hok, List.length_flatMap]
  have hN : (arrs.map B).any Builder.hasNulls = (jointBits ks arrs).any Option.isSome := by
    rw [List.any_map, ← top_any]
    congr 1
    funext a
    exact hBn a
  have hO : (arrs.map B).any Builder.hasOffsets = false := by
    rw [List.any_map, List.any_eq_false]; intro a _; simp [hBo]
  have hE : (arrs.map B).all Builder.isEmpty = true → (jointBits ks arrs).any Option.isSome = false := by
    intro h
    rw [← hN]
    rw [List.all_eq_true] at h
    rw [List.any_eq_false]
    intro b hb hbn
    have := h b hb
    unfold Builder.isEmpty at this
    unfold Builder.hasNulls at hbn
    rw [List.all_eq_true] at this
    obtain ⟨r, hr, hx⟩ := List.any_eq_true.mp hbn
    have := this r hr
    cases r with
    | offsets d => simp at hx
    | validity b n => cases b <;> simp_all
    | fsl b d n => simp at this
  have hraws : ∀ b ∈ arrs.map B, b.raws.length = ks.length + 1 := by
    intro b hb
    obtain ⟨a, _, rfl⟩ := List.mem_map.mp hb
    rw [hBr, List.length_reverse, rawsOf_length]
  obtain ⟨b, bs, hbs⟩ : ∃ b bs, arrs.map B = b :: bs := by
    cases arrs with
    | nil => exact absurd rfl hne
    | cons a arrs => exact ⟨_, _, rfl⟩
  rw [hbs, serialize, ← hbs]
  cases hall : (arrs.map B).all Builder.isEmpty with
  | true =>
    have h0 := hE hall
    simp only [if_true, h0, Bool.false_eq_true, if_false, Option.some.injEq, RepDefs.mk.injEq, true_and]
    have hbl := hraws b (by rw [hbs]; simp)
    apply List.ext_getElem
    · rw [List.length_map, hbl, jointLayers, List.length_map, jointBits_length]
    · intro i h2 h3
      simp only [jointLayers, List.getElem_map]
      have h4 : i < (jointBits ks arrs).length := by simpa [jointLayers] using h3
      have := (List.any_eq_false.mp h0) _ (List.getElem_mem h4)
      simp only [bitLayer]
      rw [if_neg this]
  | false =>
    simp only [Bool.false_eq_true, if_false]
    have hbl := hraws b (by rw [hbs]; simp)
    obtain ⟨L, hL1, hL2⟩ := combined_all (arrs.map B) (ks.length + 1) hraws (fun j => ((jointRaws ks arrs)[j]?).getD (.validity none 0)) (by
      intro j hj
      obtain ⟨ls, h1, h2⟩ := combined_rows ks arrs hne j hj
      refine ⟨ls, ?_, ?_⟩
      · rw [List.mapM_map, ← h1]
        congr 1
        funext a
        simp only [Function.comp]
        rw [hBr, List.reverse_reverse]
      · rw [h2, List.getElem?_eq_getElem (by rw [jointRaws_length]; exact hj)]
        rfl)
    have hmap : (List.range (ks.length + 1)).map (fun j => ((jointRaws ks arrs)[j]?).getD (.validity none 0)) = jointRaws ks arrs := by
      apply List.ext_getElem
      · rw [List.length_map, List.length_range, jointRaws_length]
      · intro i h1 h2
        rw [List.getElem_map, List.getElem_range, List.getElem?_eq_getElem h2]
        rfl
    rw [List.mapM_map, hBl, hbl, hL1]
    simp only
    rw [hL2, hmap, hN, hO, hsum, recordAll_rows ks hn arrs _ rfl rfl]
    · cases hb : (jointBits ks arrs).any Option.isSome <;> simp [Ctx.build, Ctx.new, collapse, jointLevels, hb]
    · intro hb h0
      have h5 := congrArg List.length h0
      simp only [Ctx.new, hb, if_true, List.length_replicate, List.length_nil] at h5
      rcases Nat.mul_eq_zero.mp h5 with h | h <;> omega

end Verif.RepDef
