import Verif.Evolve.LemmasRun
import Verif.Evolve.LemmasAccept4
namespace Verif.Evolve

theorem colsOk_abs {frags : List Frag} : ∀ {items : Bool} {s : Tr Attr}, ShapeOk s →
    (items = false → ∀ a ∈ strict s, nullOk a.nullable (absCol frags a).vals = true) → ColsOk (absN frags) items (s.map (absCol frags))
  | _, .nil, _, _ => trivial
  | items, .cons a k r, ⟨h1, h2, h3⟩, hn => by
    refine ⟨?_, fun hi => hn hi a (by simp [strict]), colsOk_abs h2 ?_, colsOk_abs h3 (fun hi b hb => hn hi b (by simp [strict, hb]))⟩
    · show (match a.kind with
        | .leaf _ => k.map (absCol frags) = .nil ∧ (absCol frags a).vals.length = absN frags
        | .list => (∃ d l, k.map (absCol frags) = .cons d l .nil) ∧ (absCol frags a).vals.length = absN frags
        | .struct => k.map (absCol frags) ≠ .nil ∧ (absCol frags a).vals = [])
      cases hk : a.kind with
      | leaf t =>
        rw [hk] at h1
        simp only at h1
        subst h1
        exact ⟨rfl, by simp [absCol, Attr.col, hk, absVals_length]⟩
      | list =>
        rw [hk] at h1
        obtain ⟨b, l, rfl⟩ := h1
        exact ⟨⟨_, _, rfl⟩, by simp [absCol, Attr.col, hk, absVals_length]⟩
      | struct =>
        rw [hk] at h1
        exact ⟨fun e => h1 (Tr.map_eq_nil.1 e), by simp [absCol, Attr.col, hk]⟩
    · intro hi b hb
      have hi' : items = false ∧ a.kind ≠ .list := by
        have : (absCol frags a).kind = a.kind := rfl
        simp only [this, Bool.or_eq_false_iff, decide_eq_false_iff_not] at hi
        exact hi
      by_cases hk : a.kind = .struct
      · exact hn hi'.1 b (by simp [strict, hk, hb])
      · cases hk' : a.kind with
        | leaf t =>
          rw [hk'] at h1
          simp only at h1
          subst h1
          cases hb
        | list => exact absurd hk' hi'.2
        | struct => exact absurd hk' hk

theorem table_colsOk {d : Ds} (hi : Inv d) : ColsOk d.table.n false d.table.cols :=
  colsOk_abs hi.schema.shape (fun _ _ ha => absVals_nullOk hi (fun _ h => h) ha)

theorem table_distinct {d : Ds} (hi : Inv d) : Distinct Col.name d.table.cols := by
  have := hi.schema.distinct
  unfold Ds.table
  rw [distinct_map]
  exact this

theorem scanPaths_ok {d : Ds} {paths : List (List Nat)} (hi : Inv d) (hr : ReadFine d.schema paths) :
    ∃ out, d.scanPaths paths = some out ∧ out.n = d.table.n ∧ Distinct Col.name out.cols ∧
      ∀ q, colAt q out.cols = if Asked paths q then colAt q d.table.cols else none := by
  obtain ⟨p, e⟩ := project_some hi.schema.distinct hi.schema.shape (acc := .nil) trivial trivial hr
  obtain ⟨h1, h2, _⟩ := project_ok hi.schema.distinct hi.schema.shape (acc := .nil) trivial trivial (readFine_has hr) e
  refine ⟨⟨absN d.frags, p.map (absCol d.frags)⟩, ?_, rfl, ?_, fun q => ?_⟩
  · unfold Ds.scanPaths
    rw [e]
    exact readFrags_ok hi.schema h1 h2 hi.frags
  · simp only
    rw [distinct_map]
    exact h2
  · exact project_cols hi.schema.distinct hi.schema.shape (readFine_has hr) e (fun _ => rfl) q

theorem project_missing {s : Tr Attr} {x : Nat} {p : List Nat} (hx : byName x s = none) : ∀ {paths : List (List Nat)} {acc : Tr Attr},
    x :: p ∈ paths → project s paths acc = none
  | [], _, h => by cases h
  | q :: qs, acc, h => by
    unfold project
    cases q with
    | nil => rfl
    | cons y q =>
      simp only
      cases e : byName y s with
      | none => rfl
      | some t =>
        simp only
        rcases List.mem_cons.1 h with h | h
        · injection h with h1 h2
          rw [← h1, hx] at e
          cases e
        · cases mergeKids false acc (projKids (y :: q) s) with
          | none => rfl
          | some acc' => exact project_missing hx h

theorem scanPaths_missing {d : Ds} {paths : List (List Nat)} {x : Nat} {p : List Nat} (hx : colByName x d.table.cols = none) (h : x :: p ∈ paths) :
    d.scanPaths paths = none := by
  unfold Ds.scanPaths
  rw [project_missing ?_ h]
  have : (colAt [x] d.table.cols).isSome = (fieldAt [x] d.schema).isSome := colAt_table [x]
  simp only [colAt, fieldAt, Option.isSome_map, hx, Option.isSome_none] at this
  exact Option.isNone_iff_eq_none.1 (by rw [← Option.not_isSome, ← this]; rfl)

end Verif.Evolve
