import Verif.Legacy.LemmasRead
/-! What is read of a column of any type. -/
namespace Verif.Legacy
open Verif.ListCol
open Verif.RowIds.Serde (leBytes fromLe leBytes_length fromLe_leBytes)

theorem mapM_pick {α β : Type} [Inhabited α] [Inhabited β] (f : α → Option β) (g : α → β) (xs : List α) (p : Params) (hp : p.OkStrict xs.length)
    (h : ∀ x ∈ xs, f x = some (g x)) : (p.pick xs).mapM f = some (p.pick (xs.map g)) := by
  rw [pick_map g xs p hp]
  exact mapM_some_of f g _ (fun x hx => h x (pick_mem xs p hp x hx))

theorem nullRows_ok (n : Nat) (p : Params) (hp : p.OkStrict n) :
    (nullRows n p).map (fun k => List.replicate k Val.null) = some (p.pick (List.replicate n Val.null)) := by
  cases p with
  | range s e =>
    have hp : s ≤ e ∧ e ≤ n := hp
    simp only [nullRows, Params.pick]
    rw [if_neg (by omega), List.take_replicate, List.drop_replicate, Nat.min_eq_left hp.2]
    rfl
  | full => rfl
  | to e =>
    have hp : e ≤ n := hp
    simp only [nullRows, Params.pick]
    rw [if_neg (by omega), List.take_replicate, Nat.min_eq_left hp]
    rfl
  | «from» s => simp [nullRows, Params.pick]
  | indices is =>
    have h2 := hp.2
    simp only [nullRows, Params.pick]
    rw [if_pos (by simpa using h2), Option.map_some]
    congr 1
    clear hp
    induction is with
    | nil => rfl
    | cons i is ih =>
      have := h2 i (by simp)
      rw [List.length_cons, List.replicate_succ, List.map_cons, ih (fun j hj => h2 j (by simp [hj])), getElem!_pos _ i (by simpa using this),
        List.getElem_replicate]

theorem ext_left (batch : Nat) (a b : CTy) (hd : (a.ids ++ b.ids).Nodup) (xs ys : List Arr) (f g : File)
    (h : Ext batch (.pair a b) (write batch b ys (write batch a xs f)) g) : Ext batch a (write batch a xs f) g := by
  obtain ⟨⟨m, hm⟩, hp⟩ := h
  obtain ⟨m2, h2⟩ := write_grows batch b ys (write batch a xs f)
  refine ⟨⟨m2 ++ m, by rw [hm, h2, List.append_assoc]⟩, ?_⟩
  intro id hid
  rw [hp id (by simp [CTy.ids, hid]), write_page_other batch b ys _ id batch (Or.inl (fun h => (List.nodup_append.1 hd).2.2 id hid id h rfl))]

theorem pieces_flatten_eq {α : Type} (data : List α) (os : List Nat) (hne : os ≠ []) (hs : Sorted os) (h : ∀ o ∈ os, o ≤ data.length) :
    (pieces data os).flatten = slice data (os.headD 0, os.getLastD 0) := by
  cases os with
  | nil => exact absurd rfl hne
  | cons a r => exact (pieces_sums_eq data a r 0 hs h).2

theorem items_stored (t : CTy) (os : List Nat) (valid : List Bool) (v : Arr) (h : Good t v) (ho : OffsOk v.length os) :
    Good t (Arr.list os valid v).items ∧ stored t (Arr.list os valid v).items = (pieces (stored t v) os).flatten := by
  have hl := stored_length t v h
  have hne := ho.1
  have hs := ho.2.1
  have h0 : os.headD 0 ∈ os := by cases os with
    | nil => exact absurd rfl hne
    | cons a r => simp
  have h1 : os.getLastD 0 = os.getLast hne := by rw [List.getLastD_eq_getLast?, List.getLast?_eq_some_getLast hne]; rfl
  have hle : os.headD 0 ≤ os.getLastD 0 := by rw [h1]; exact sorted_getLast os hne hs _ h0
  have hb : os.getLastD 0 ≤ v.length := by rw [h1]; exact ho.2.2 _ (List.getLast_mem hne)
  refine ⟨good_slice t v _ _ h hle hb, ?_⟩
  rw [pieces_flatten_eq (stored t v) os hne hs (by rw [hl]; exact ho.2.2)]
  exact stored_slice t v _ _ h hle hb

/-- The lists of the rows of list arrays. -/
def listsOf (t : CTy) (arrs : List Arr) : List (List Val) := arrs.flatMap (fun a => pieces (stored t a.values) a.offsets)

theorem lists_ok (id : Nat) (l : Bool) (t : CTy) : ∀ (arrs : List Arr), (∀ a ∈ arrs, Good (.list id l t) a) →
    (∀ a ∈ arrs.map Arr.items, Good t a) ∧ (arrs.map Arr.items).flatMap (stored t) = (listsOf t arrs).flatten ∧
    arrs.flatMap (stored (.list id l t)) = (listsOf t arrs).map Val.ofList ∧ (listsOf t arrs).length = total arrs ∧
    0 :: positionsFrom 0 (arrs.map Arr.offsets) = sums 0 (lens (listsOf t arrs)) := by
  intro arrs h
  have hp : 0 :: positionsFrom 0 (arrs.map Arr.offsets) = sums 0 (lens (listsOf t arrs)) := by
    have := positions_eq (arrs.map (fun a => (a.offsets, stored t a.values))) 0 (by
      intro x hx
      obtain ⟨a, ha, rfl⟩ := List.mem_map.1 hx
      have hg := h a ha
      cases a <;> simp only [Good] at hg
      show OffsOk (stored t _).length _
      rw [Arr.values, stored_length t _ hg.1]
      exact hg.2.1)
    rw [List.map_map, List.flatMap_map] at this
    exact this
  refine ⟨?_, ?_, ?_, ?_, hp⟩
  · intro x hx
    obtain ⟨a, ha, rfl⟩ := List.mem_map.1 hx
    have hg := h a ha
    cases a <;> simp only [Good] at hg
    exact (items_stored t _ _ _ hg.1 hg.2.1).1
  all_goals
    clear hp
    induction arrs with
    | nil => rfl
    | cons a arrs ih =>
      have ih := ih (fun b hb => h b (by simp [hb]))
      have hg := h a (by simp)
      cases a <;> simp only [Good] at hg
      rename_i os valid v
      simp only [listsOf, List.flatMap_cons, List.map_cons, List.flatten_append, List.map_append, List.length_append, total_cons] at ih ⊢
      rw [ih]
      first
      | rw [(items_stored t os valid v hg.1 hg.2.1).2]; rfl
      | rfl
      | (simp only [Arr.values, Arr.offsets, Arr.length, pieces_length]; omega)

theorem rows_kept (t : Ty) : ∀ (arrs : List Arr) (id : Nat), (∀ a ∈ arrs, Good (.fixed id t) a) → ∃ R : List (List Cell),
    (∀ r ∈ R, r.length = t.mult ∧ ∀ c ∈ r, Fits t.leaf c.2) ∧ (arrs.map Arr.cells).flatten = R.flatten ∧ total arrs = R.length ∧
    arrs.flatMap (stored (.fixed id t)) = (R.map (fun r => r.map (keep t.leaf))).map .items
  | [], id, _ => ⟨[], by simp, rfl, rfl, rfl⟩
  | a :: arrs, id, h => by
    obtain ⟨R, h1, h2, h3, h4⟩ := rows_kept t arrs id (fun b hb => h b (by simp [hb]))
    have hg := h a (by simp)
    cases a <;> simp only [Good] at hg
    rename_i rows
    refine ⟨rows.map (·.2) ++ R, ?_, ?_, ?_, ?_⟩
    · intro r hr
      rcases List.mem_append.1 hr with hr | hr
      · obtain ⟨x, hx, rfl⟩ := List.mem_map.1 hr
        exact hg.2.2 x hx
      · exact h1 r hr
    · rw [List.map_cons, List.flatten_cons, h2, List.flatten_append]
      simp only [Arr.cells, List.flatMap_def]
    · rw [total_cons, h3, List.length_append, List.length_map]
      rfl
    · rw [List.flatMap_cons, h4]
      simp [stored, Function.comp_def]

theorem keys_kept (w : Nat) (values : List Val) : ∀ (arrs : List Arr) (id : Nat), (∀ a ∈ arrs, Good (.dict id w values) a) →
    total arrs = (arrs.map Arr.keys).flatten.length ∧ (∀ k ∈ (arrs.map Arr.keys).flatten, Fits (.prim w) k.2 ∧ fromLe k.2.toRaw < values.length) ∧
    arrs.flatMap (stored (.dict id w values)) = (arrs.map Arr.keys).flatten.map (fun k => values.getD (fromLe k.2.toRaw) .null)
  | [], id, _ => ⟨rfl, by simp, rfl⟩
  | a :: arrs, id, h => by
    obtain ⟨h1, h2, h3⟩ := keys_kept w values arrs id (fun b hb => h b (by simp [hb]))
    have hg := h a (by simp)
    cases a <;> simp only [Good] at hg
    rename_i keys vs
    refine ⟨?_, ?_, ?_⟩
    · rw [total_cons, h1, List.map_cons, List.flatten_cons, List.length_append]; rfl
    · intro k hk
      rw [List.map_cons, List.flatten_cons] at hk
      rcases List.mem_append.1 hk with hk | hk
      · exact hg.2 k hk
      · exact h2 k hk
    · rw [List.flatMap_cons, h3, List.map_cons, List.flatten_cons, List.map_append]; rfl

theorem bytes_kept (l n : Bool) : ∀ (arrs : List Arr) (id : Nat), (∀ a ∈ arrs, Good (.bytes id l n) a) →
    (∀ b ∈ arrs.map Arr.asBytes, b.Ok) ∧ total arrs = ((arrs.map Arr.asBytes).flatMap BArr.slots).length ∧
    arrs.flatMap (stored (.bytes id l n)) = (((arrs.map Arr.asBytes).flatMap BArr.slots).map (norm n)).map Val.ofBytes
  | [], id, _ => ⟨by simp, rfl, rfl⟩
  | a :: arrs, id, h => by
    obtain ⟨h1, h2, h3⟩ := bytes_kept l n arrs id (fun b hb => h b (by simp [hb]))
    have hg := h a (by simp)
    have hl := stored_length _ _ hg
    cases a <;> simp only [Good] at hg
    rename_i b
    refine ⟨?_, ?_, ?_⟩
    · intro x hx
      rcases List.mem_cons.1 hx with rfl | hx
      · exact hg
      · exact h1 x hx
    · rw [total_cons, h2, List.map_cons, List.flatMap_cons, List.length_append, ← hl]
      simp [stored, Arr.asBytes]
    · rw [List.flatMap_cons, h3]
      simp [stored, Arr.asBytes, Function.comp_def]

theorem sub_total (t : CTy) (f : Arr → Arr) (h : ∀ a, a ∈ arrs → (f a).length = a.length) : total (arrs.map f) = total arrs := by
  unfold total
  rw [List.map_map]
  congr 1
  exact List.map_congr_left h

theorem nulls_kept (id : Nat) : ∀ (arrs : List Arr), arrs.flatMap (stored (.null id)) = List.replicate (total arrs) Val.null
  | [] => rfl
  | a :: arrs => by rw [List.flatMap_cons, nulls_kept id arrs, total_cons, ← List.replicate_append_replicate]; rfl

theorem readCol_ok (block minIo batch : Nat) : ∀ (t : CTy), t.ids.Nodup → ∀ (arrs : List Arr) (f g : File), arrs ≠ [] → (∀ a ∈ arrs, Good t a) →
    Sized t arrs → Ext batch t (write batch t arrs f) g → g.bytes.length < 2 ^ 63 → ∀ (p : Params), p.OkStrict (total arrs) → p ≠ .indices [] →
    readCol g block minIo batch t p = some (p.pick (arrs.flatMap (stored t))) := by
  intro t
  induction t with
  | null id =>
    intro _ arrs f g _ ha _ hg _ p hp _
    have hpg : g.page id batch = some (f.bytes.length, total arrs) := by rw [hg.2 id (by simp [CTy.ids]), write, page_add]
    simp only [readCol, hpg, Option.bind_eq_bind, Option.bind_some]
    have hr : arrs.flatMap (stored (.null id)) = List.replicate (total arrs) Val.null := nulls_kept id arrs
    rw [hr, ← nullRows_ok _ p hp]
    cases nullRows (total arrs) p <;> rfl
  | fixed id t =>
    intro _ arrs f g hne ha _ hg _ p hp _
    have hpg : g.page id batch = some (f.bytes.length, total arrs) := by rw [hg.2 id (by simp [CTy.ids]), write, page_add]
    simp only [readCol, hpg, Option.bind_eq_bind, Option.bind_some]
    have h0 := ha _ (List.getLast_mem hne)
    have hty : t.Pos ∧ (t = .bool ∨ t.leaf ≠ .bool) := by
      cases hA : arrs.getLast hne <;> rw [hA] at h0 <;> simp only [Good] at h0
      exact ⟨h0.1, h0.2.1⟩
    obtain ⟨R, h1, h2, h3, h4⟩ := rows_kept t arrs id ha
    rw [readPlain_ok f g block id batch (total arrs) t hty.1 hty.2 R h1 _ h2 h3 hg.1 p (h3 ▸ hp), h4,
      pick_map Val.items _ p (by rw [List.length_map, ← h3]; exact hp)]
    rfl
  | bytes id l n =>
    intro _ arrs f g hne ha hs hg hfit p hp _
    have hpg : g.page id batch = some (f.bytes.length + (dataOf (arrs.map Arr.asBytes)).length, total arrs) := by
      rw [hg.2 id (by simp [CTy.ids]), write, page_add]
    simp only [readCol, hpg, Option.bind_eq_bind, Option.bind_some]
    obtain ⟨h1, h2, h3⟩ := bytes_kept l n arrs id ha
    obtain ⟨more, hm⟩ := hg.1
    have hd := dataOf_eq _ h1
    have hb : g.bytes = f.bytes ++ encodeBin f.bytes.length (arrs.map Arr.asBytes) ++ more := hm
    have hs : l = true ∨ (dataOf (arrs.map Arr.asBytes)).length < 2 ^ 31 := hs
    rw [hd] at hs
    have hlen := congrArg List.length hb
    rw [encodeBin_eq _ _ h1] at hlen
    simp only [List.length_append] at hlen
    rw [hb, h2, readBin_ok f.bytes more minIo l n _ h1 (by omega) hs p (h2 ▸ hp)]
    simp only [Option.bind_some, arrOf_rows]
    rw [h3, pick_map Val.ofBytes _ p (by rw [List.length_map, ← h2]; exact hp), pick_map (norm n) _ p (by rw [← h2]; exact hp)]
  | dict id w values =>
    intro _ arrs f g hne ha _ hg _ p hp _
    have hpg : g.page id batch = some (f.bytes.length, total arrs) := by rw [hg.2 id (by simp [CTy.ids]), write, page_add]
    simp only [readCol, hpg, Option.bind_eq_bind, Option.bind_some]
    have h0 := ha _ (List.getLast_mem hne)
    have hw : 0 < w := by
      cases hA : arrs.getLast hne <;> rw [hA] at h0 <;> simp only [Good] at h0
      exact h0.1
    obtain ⟨h1, h2, h3⟩ := keys_kept w values arrs id ha
    rw [readPlain_ok f g block id batch (total arrs) (.prim w) hw (Or.inr (by simp [Ty.leaf])) ((arrs.map Arr.keys).flatten.map (fun k => [k]))
      (by
        intro r hr
        obtain ⟨k, hk, rfl⟩ := List.mem_map.1 hr
        refine ⟨rfl, ?_⟩
        intro c hc
        rw [List.mem_singleton.1 hc]
        exact (h2 k hk).1)
      (arrs.map Arr.keys) (by rw [← List.flatMap_def (l := (arrs.map Arr.keys).flatten), List.flatMap_singleton']) (by rw [List.length_map, h1]) hg.1 p
      (by rw [List.length_map, ← h1]; exact hp)]
    simp only [Option.bind_some]
    rw [mapM_pick _ (fun r => values.getD (fromLe (r.flatMap Item.toRaw)) .null) _ p (by rw [List.length_map, List.length_map, ← h1]; exact hp)
      (by
        intro r hr
        obtain ⟨x, hx, rfl⟩ := List.mem_map.1 hr
        obtain ⟨k, hk, rfl⟩ := List.mem_map.1 hx
        obtain ⟨f1, f2⟩ := h2 k hk
        have e1 : ([k].map (keep (Ty.prim w).leaf)).flatMap Item.toRaw = k.2.toRaw := by
          simp only [List.map_cons, List.map_nil, List.flatMap_cons, List.flatMap_nil, List.append_nil]
          cases hk2 : k.2 <;> simp_all [keep, Ty.leaf, Item.toRaw, Fits]
        rw [e1, List.getD_eq_getElem?_getD, List.getElem?_eq_getElem f2]
        rfl), h3, List.map_map, List.map_map]
    congr 2
    apply List.map_congr_left
    intro k hk
    obtain ⟨f1, f2⟩ := h2 k hk
    have e1 : ([k].map (keep (Ty.prim w).leaf)).flatMap Item.toRaw = k.2.toRaw := by
      simp only [List.map_cons, List.map_nil, List.flatMap_cons, List.flatMap_nil, List.append_nil]
      cases hk2 : k.2 <;> simp_all [keep, Ty.leaf, Item.toRaw, Fits]
    simp only [Function.comp_apply, e1]
  | pair a b iha ihb =>
    intro hd arrs f g hne ha hs hg hfit p hp hpn
    have hd : (a.ids ++ b.ids).Nodup := hd
    have hn := List.nodup_append.1 hd
    have hA : ∀ x ∈ arrs, Good a x.first ∧ Good b x.rest ∧ x.first.length = x.length ∧ x.rest.length = x.length ∧
        stored (.pair a b) x = List.zipWith .pair (stored a x.first) (stored b x.rest) := by
      intro x hx
      have h0 := ha x hx
      cases x <;> simp only [Good] at h0
      exact ⟨h0.1, h0.2.1, rfl, h0.2.2.symm, rfl⟩
    have hga : ∀ x ∈ arrs.map Arr.first, Good a x := by
      intro x hx; obtain ⟨y, hy, rfl⟩ := List.mem_map.1 hx; exact (hA y hy).1
    have hgb : ∀ x ∈ arrs.map Arr.rest, Good b x := by
      intro x hx; obtain ⟨y, hy, rfl⟩ := List.mem_map.1 hx; exact (hA y hy).2.1
    have hta : total (arrs.map Arr.first) = total arrs := sub_total a _ (fun x hx => (hA x hx).2.2.1)
    have htb : total (arrs.map Arr.rest) = total arrs := sub_total b _ (fun x hx => (hA x hx).2.2.2.1)
    simp only [readCol]
    rw [iha hn.1 (arrs.map Arr.first) f g (by simpa using hne) hga hs.1 (ext_left batch a b hd _ _ f g hg) hfit p (hta ▸ hp) hpn,
      ihb hn.2.1 (arrs.map Arr.rest) (write batch a (arrs.map Arr.first) f) g (by simpa using hne) hgb hs.2
        ⟨hg.1, fun id hid => hg.2 id (by simp [CTy.ids, hid])⟩ hfit p (htb ▸ hp) hpn]
    simp only [Option.bind_eq_bind, Option.bind_some]
    have hla := total_eq a _ hga
    have hlb := total_eq b _ hgb
    rw [hta] at hla
    rw [htb] at hlb
    rw [if_pos (by rw [pick_length _ p (hla ▸ hp), pick_length _ p (hlb ▸ hp), hla, hlb]), ← pick_zipWith _ _ _ (by rw [hla, hlb]) p (hla ▸ hp)]
    congr 2
    rw [List.flatMap_map, List.flatMap_map, ← zipWith_flatMap]
    · rw [List.flatMap_def, List.flatMap_def]
      congr 1
      exact List.map_congr_left (fun x hx => (hA x hx).2.2.2.2.symm)
    · intro x hx
      obtain ⟨q1, q2, q3, q4, _⟩ := hA x hx
      rw [stored_length a _ q1, stored_length b _ q2, q3, q4]
  | struct t ih =>
    intro hd arrs f g hne ha hs hg hfit p hp hpn
    have hA : ∀ x ∈ arrs, Good t x.fields ∧ x.fields.length = x.length ∧ stored (.struct t) x = stored t x.fields := by
      intro x hx
      have h0 := ha x hx
      cases x <;> simp only [Good] at h0
      exact ⟨h0.1, rfl, rfl⟩
    have ht : total (arrs.map Arr.fields) = total arrs := sub_total t _ (fun x hx => (hA x hx).2.1)
    simp only [readCol]
    rw [ih hd (arrs.map Arr.fields) f g (by simpa using hne) (by intro x hx; obtain ⟨y, hy, rfl⟩ := List.mem_map.1 hx; exact (hA y hy).1)
      hs hg hfit p (ht ▸ hp) hpn]
    congr 2
    rw [List.flatMap_map, List.flatMap_def, List.flatMap_def]
    congr 1
    exact List.map_congr_left (fun x hx => (hA x hx).2.2.symm)
  | list id l t ih =>
    intro hd arrs f g hne ha hs hg hfit p hp hpn
    have hd : (id :: t.ids).Nodup := hd
    obtain ⟨hid, hdt⟩ := List.nodup_cons.1 hd
    obtain ⟨q1, q2, q3, q4, q5⟩ := lists_ok id l t arrs ha
    obtain ⟨hs1, hs2⟩ := hs
    have htot := total_eq t _ q1
    rw [q2] at htot
    have hww : 0 < offWidth l := by unfold offWidth; split <;> omega
    have hpg : g.page id batch = some (f.bytes.length, (0 :: positionsFrom 0 (arrs.map Arr.offsets)).length) := by
      rw [hg.2 id (by simp [CTy.ids]), write, write_page_other batch t _ _ id batch (Or.inl hid), page_add]
    simp only [readCol, hpg]
    rw [q3]
    apply readList_ok _ _ (listsOf t arrs) _ _ p (q4 ▸ hp) hpn
    · intro p' hp' hpn'
      rw [ih hdt (arrs.map Arr.items) _ g (by simpa using hne) q1 hs2 ⟨hg.1, fun i hi => hg.2 i (by simp [CTy.ids, hi])⟩ hfit p' (htot ▸ hp') hpn', q2]
    · intro p' hp' _
      generalize hP : 0 :: positionsFrom 0 (arrs.map Arr.offsets) = P at *
      have hPl : P.length = (listsOf t arrs).length + 1 := by rw [q5, sums_length]; simp
      obtain ⟨more, hm⟩ := hg.1
      rw [write, hP] at hm
      obtain ⟨m2, hm2⟩ := write_grows batch t (arrs.map Arr.items) (f.add (encode (.prim (offWidth l)) [P.map (fun p => (true, .raw (leBytes (offWidth l) p)))])
        id batch f.bytes.length P.length)
      rw [readPlain_ok f g block id batch P.length (.prim (offWidth l)) hww (Or.inr (by simp [Ty.leaf])) (P.map (fun p => [(true, .raw (leBytes (offWidth l) p))]))
        (by
          intro r hr
          obtain ⟨k, hk, rfl⟩ := List.mem_map.1 hr
          refine ⟨rfl, ?_⟩
          intro c hc
          rw [List.mem_singleton.1 hc]
          simp [Fits, Ty.leaf, leBytes_length])
        [P.map (fun p => (true, .raw (leBytes (offWidth l) p)))] (by
          rw [List.flatten_singleton, List.map_eq_flatMap, List.flatMap_def]) (by rw [List.length_map])
        ⟨m2 ++ more, by rw [hm, hm2, List.append_assoc]⟩ p' (by rw [List.length_map, hPl]; exact hp')]
      rw [Option.map_some, ← pick_map _ _ p' (by rw [List.length_map, List.length_map, hPl]; exact hp'), List.map_map, List.map_map, ← q5]
      congr 2
      conv => rhs; rw [← List.map_id P]
      apply List.map_congr_left
      intro x hx
      have hxb : x < 256 ^ offWidth l := by
        rw [q5] at hx
        obtain ⟨i, hi, hx⟩ := List.mem_iff_getElem.1 hx
        rw [sums_length] at hi
        have h1 := sums_get 0 (lens (listsOf t arrs)) i (by omega)
        rw [List.getElem?_eq_getElem (by rw [sums_length]; omega), hx] at h1
        have h2 := before_le (listsOf t arrs) i
        unfold before at h2
        have h3 := Option.some.inj h1
        have h4 : x < (if l then 2 ^ 63 else 2 ^ 31) := by omega
        unfold offWidth
        cases l
        · exact Nat.lt_of_lt_of_le h4 (by decide)
        · exact Nat.lt_of_lt_of_le h4 (by decide)
      simp only [Function.comp_apply, List.map_cons, List.map_nil, List.flatMap_cons, List.flatMap_nil, List.append_nil, keep, Ty.leaf, Item.toRaw, id_eq]
      exact fromLe_leBytes _ _ hxb
end Verif.Legacy
