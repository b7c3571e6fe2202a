import Verif.Fts.LemmasPos
/-! # Full text search: the loop over the documents -/
namespace Verif.Fts

/-- The candidates are full of documents that are not worse. -/
def Dom (limit : Nat) (cands : List (Nat × Nat)) (s : Nat) : Prop := limit ≤ cands.length ∧ ∀ c ∈ cands, s ≤ c.2

/-- What holds for the candidates when the documents in `seen` have been considered. -/
structure CInv (ok : Nat → Prop) (score : Nat → Nat) (limit : Nat) (scale : Nat → Nat) (seen : Nat → Prop) (thr : Nat)
    (cands : List (Nat × Nat)) : Prop where
  thr : thr = 0 ∨ (limit ≤ cands.length ∧ ∀ c ∈ cands, thr ≤ scale c.2)
  done : ∀ d, ok d → seen d → d ∈ cands.map Prod.fst ∨ Dom limit cands (score d)
  cand : ∀ c ∈ cands, ok c.1 ∧ c.2 = score c.1 ∧ seen c.1
  nodup : (cands.map Prod.fst).Nodup
  le : cands.length ≤ limit

theorem CInv.dom {ok : Nat → Prop} {score : Nat → Nat} {limit : Nat} {scale : Nat → Nat} (hscale : ∀ x, scale x ≤ x) {seen : Nat → Prop}
    {thr : Nat} {cands : List (Nat × Nat)} (h : CInv ok score limit scale seen thr cands) {s : Nat} (hs : s < thr) : Dom limit cands s := by
  rcases h.thr with h0 | ⟨h1, h2⟩
  · omega
  · refine ⟨h1, fun c hc => ?_⟩
    have := h2 c hc
    have := hscale c.2
    omega

/-- More documents are seen, all of them without need to be candidates. -/
theorem CInv.pass {ok : Nat → Prop} {score : Nat → Nat} {limit : Nat} {scale : Nat → Nat} (hscale : ∀ x, scale x ≤ x) {seen seen' : Nat → Prop}
    {thr : Nat} {cands : List (Nat × Nat)} (h : CInv ok score limit scale seen thr cands) (hmono : ∀ d, seen d → seen' d)
    (hnew : ∀ d, ok d → seen' d → ¬ seen d → score d < thr) : CInv ok score limit scale seen' thr cands := by
  refine ⟨h.thr, ?_, ?_, h.nodup, h.le⟩
  · intro d hok hs
    by_cases hd : seen d
    · exact h.done d hok hd
    · exact Or.inr (h.dom hscale (hnew d hok hs hd))
  · intro c hc
    have := h.cand c hc
    exact ⟨this.1, this.2.1, hmono _ this.2.2⟩

theorem offer_spec {ok : Nat → Prop} {score : Nat → Nat} {limit : Nat} {scale : Nat → Nat} (lib : Lib) (hscale : ∀ x, scale x ≤ x)
    (hmono : ∀ a b, a ≤ b → scale a ≤ scale b) (hlimit : 0 < limit) {seen : Nat → Prop} {w : W} {d : Nat}
    (h : CInv ok score limit scale seen w.threshold w.cands) (hd : ok d) (hns : ¬ seen d) :
    ∃ w', offer lib limit scale w d (score d) = some w' ∧ w'.postings = w.postings ∧ w'.cur = w.cur ∧ w.threshold ≤ w'.threshold ∧
      CInv ok score limit scale (fun x => seen x ∨ x = d) w'.threshold w'.cands := by
  have hdn : d ∉ w.cands.map Prod.fst := by
    intro hm
    obtain ⟨c, hc, rfl⟩ := List.mem_map.1 hm
    exact hns (h.cand c hc).2.2
  unfold offer
  by_cases hlt : w.cands.length < limit
  · rw [if_pos hlt]
    refine ⟨_, rfl, rfl, rfl, Nat.le_refl _, ?_, ?_, ?_, ?_, ?_⟩
    · rcases h.thr with h0 | ⟨h1, _⟩
      · exact Or.inl h0
      · omega
    · intro x hok hs
      simp only [List.map_append, List.mem_append, List.map_cons, List.map_nil, List.mem_singleton]
      rcases hs with hs | hs
      · rcases h.done x hok hs with hx | hx
        · exact Or.inl (Or.inl hx)
        · exact absurd hx.1 (by omega)
      · exact Or.inl (Or.inr hs)
    · intro c hc
      rcases List.mem_append.1 hc with hc | hc
      · have := h.cand c hc
        exact ⟨this.1, this.2.1, Or.inl this.2.2⟩
      · simp only [List.mem_singleton] at hc
        subst hc
        exact ⟨hd, rfl, Or.inr rfl⟩
    · rw [List.map_append, List.nodup_append]
      refine ⟨h.nodup, by simp, ?_⟩
      intro a ha b hb
      simp only [List.map_cons, List.map_nil, List.mem_singleton] at hb
      subst hb
      intro e
      subst e
      exact hdn ha
    · simp only [List.length_append, List.length_singleton]
      omega
  · rw [if_neg hlt]
    have hle := h.le
    have hlen : w.cands.length = limit := by omega
    cases hp : lib.pop w.cands with
    | none =>
      have := lib.pop_none _ hp
      rw [this] at hlen
      simp only [List.length_nil] at hlen
      omega
    | some r =>
      obtain ⟨m, rest⟩ := r
      obtain ⟨hperm, hmin⟩ := lib.pop_some _ _ _ hp
      simp only
      by_cases hms : m.2 < score d
      · rw [if_pos hms]
        cases hp2 : lib.pop (rest ++ [(d, score d)]) with
        | none =>
          have := lib.pop_none _ hp2
          simp at this
        | some r2 =>
          obtain ⟨m', rest'⟩ := r2
          obtain ⟨hperm', hmin'⟩ := lib.pop_some _ _ _ hp2
          simp only
          have hrl : rest.length + 1 = limit := by
            have := hperm.length_eq
            simp only [List.length_cons] at this
            omega
          have hm' : m' ∈ rest ++ [(d, score d)] := hperm'.mem_iff.2 (by simp)
          have hrest : ∀ c ∈ rest, c ∈ w.cands := fun c hc => hperm.mem_iff.2 (List.mem_cons_of_mem _ hc)
          have hmc : m ∈ w.cands := hperm.mem_iff.2 (by simp)
          have hthr : ∀ c ∈ rest ++ [(d, score d)], w.threshold ≤ scale c.2 := by
            intro c hc
            rcases h.thr with h0 | ⟨_, h2⟩
            · omega
            · rcases List.mem_append.1 hc with hc | hc
              · exact h2 c (hrest c hc)
              · simp only [List.mem_singleton] at hc
                subst hc
                have := h2 m hmc
                have := hmono m.2 (score d) (by omega)
                simp only
                omega
          have hminAll : ∀ c ∈ rest ++ [(d, score d)], m.2 ≤ c.2 := by
            intro c hc
            rcases List.mem_append.1 hc with hc | hc
            · exact hmin c (hrest c hc)
            · simp only [List.mem_singleton] at hc
              subst hc
              simp only
              omega
          refine ⟨_, rfl, rfl, rfl, hthr m' hm', ?_, ?_, ?_, ?_, ?_⟩
          · refine Or.inr ⟨by simp only [List.length_append, List.length_singleton]; omega, ?_⟩
            intro c hc
            exact hmono _ _ (hmin' c hc)
          · intro x hok hs
            simp only [List.map_append, List.mem_append, List.map_cons, List.map_nil, List.mem_singleton]
            by_cases hxd : x = d
            · exact Or.inl (Or.inr hxd)
            · have hsx : seen x := hs.resolve_right hxd
              rcases h.done x hok hsx with hx | hx
              · obtain ⟨c, hc, rfl⟩ := List.mem_map.1 hx
                rcases List.mem_cons.1 (hperm.mem_iff.1 hc) with hcm | hc'
                · subst hcm
                  refine Or.inr ⟨by simp only [List.length_append, List.length_singleton]; omega, ?_⟩
                  intro c' hc'
                  have := hminAll c' hc'
                  have := (h.cand c hmc).2.1
                  omega
                · exact Or.inl (Or.inl (List.mem_map.2 ⟨c, hc', rfl⟩))
              · refine Or.inr ⟨by simp only [List.length_append, List.length_singleton]; omega, ?_⟩
                intro c' hc'
                have := hminAll c' hc'
                have := hx.2 m hmc
                omega
          · intro c hc
            rcases List.mem_append.1 hc with hc | hc
            · have := h.cand c (hrest c hc)
              exact ⟨this.1, this.2.1, Or.inl this.2.2⟩
            · simp only [List.mem_singleton] at hc
              subst hc
              exact ⟨hd, rfl, Or.inr rfl⟩
          · have hnd : ((m :: rest).map Prod.fst).Nodup := (hperm.map Prod.fst).nodup_iff.1 h.nodup
            rw [List.map_cons, List.nodup_cons] at hnd
            rw [List.map_append, List.nodup_append]
            refine ⟨hnd.2, by simp, ?_⟩
            intro a ha b hb
            simp only [List.map_cons, List.map_nil, List.mem_singleton] at hb
            subst hb
            intro e
            subst e
            obtain ⟨c, hc, hce⟩ := List.mem_map.1 ha
            exact hdn (List.mem_map.2 ⟨c, hrest c hc, hce⟩)
          · simp only [List.length_append, List.length_singleton]
            omega
      · rw [if_neg hms]
        refine ⟨w, rfl, rfl, rfl, Nat.le_refl _, h.thr, ?_, ?_, h.nodup, h.le⟩
        · intro x hok hs
          by_cases hxd : x = d
          · subst hxd
            refine Or.inr ⟨by omega, ?_⟩
            intro c hc
            have := hmin c hc
            omega
          · exact h.done x hok (hs.resolve_right hxd)
        · intro c hc
          have := h.cand c hc
          exact ⟨this.1, this.2.1, Or.inl this.2.2⟩

/-! ## The score of the document found -/

theorem part_head {contrib : Nat → Nat → Nat → Nat} {it : It} {e : Entry} {d : Nat} (hok : it.ok)
    (hs : (it.p.list.map Entry.row).Pairwise (· < ·)) (hd : it.doc = some e) (he : e.row = d) :
    part contrib d it.p = contrib it.p.list.length d e.freq := by
  have hm : e ∈ it.p.list := by
    obtain ⟨pre, h⟩ := hok
    rw [h]
    exact List.mem_append_right _ (List.mem_of_mem_head? hd)
  unfold part
  rw [find_of_mem hs hm he]

theorem part_zero {contrib : Nat → Nat → Nat → Nat} {it : It} {d : Nat} (hok : it.ok)
    (hs : (it.p.list.map Entry.row).Pairwise (· < ·)) (hu : ∀ e ∈ it.p.list, e.row = d → e ∈ it.rest)
    (hd : ∀ e, it.doc = some e → d < e.row) : part contrib d it.p = 0 := by
  unfold part
  cases hf : it.p.list.find? (fun e => e.row == d) with
  | none => rfl
  | some e =>
    exfalso
    obtain ⟨h1, h2⟩ := find_row hf
    have h3 := hu e h1 h2
    cases hdoc : it.doc with
    | none =>
      simp only [It.doc, List.head?_eq_none_iff] at hdoc
      rw [hdoc] at h3
      cases h3
    | some e' =>
      have := hd e' hdoc
      have := head_le (It.ok_sorted hok hs) hdoc h3
      omega

theorem scoreLoop_spec {contrib : Nat → Nat → Nat → Nat} {d : Nat} : ∀ (its : List It) (s : Nat), its.Pairwise It.le →
    (∀ it ∈ its, it.ok) → (∀ it ∈ its, (it.p.list.map Entry.row).Pairwise (· < ·)) → Unsk d its →
    (∀ it ∈ its, ∃ e, it.doc = some e ∧ d ≤ e.row) →
    scoreLoop contrib d s its = some (s + docScore contrib (its.map It.p) d) := by
  intro its
  induction its with
  | nil => intro s _ _ _ _ _; rfl
  | cons a its ih =>
    intro s hs hok hso hu hl
    rw [scoreLoop]
    obtain ⟨e, he, hle⟩ := hl a (by simp)
    simp only [he]
    by_cases hlt : d < e.row
    · rw [if_pos hlt]
      have hz : docScore contrib ((a :: its).map It.p) d = 0 := by
        unfold docScore
        rw [List.map_map]
        refine sum_zero fun it hit => ?_
        refine part_zero (hok it hit) (hso it hit) (hu it hit) ?_
        intro e' he'
        have := sorted_head_le hs rfl he hit he'
        omega
      rw [hz]
      rfl
    · rw [if_neg hlt]
      have : e.row = d := by omega
      rw [ih _ (List.pairwise_cons.1 hs).2 (fun it hit => hok it (by simp [hit])) (fun it hit => hso it (by simp [hit]))
        (fun it hit => hu it (by simp [hit])) (fun it hit => hl it (by simp [hit]))]
      simp only [docScore, List.map_cons, List.sum_cons, part_head (hok a (by simp)) (hso a (by simp)) he this]
      congr 1
      omega

theorem Found.unsk {mask : Nat → Bool} {contrib : Nat → Nat → Nat → Nat} {ps : List Posting} {w w' : W} {gone : List It} {d : Nat}
    (h : Found mask contrib ps w w' gone d) : Unsk d (w'.postings ++ gone) := by
  rcases h.inv.skip d h.mask_d h.after with hu | hl
  · exact hu
  · have := hl.1
    have := h.enough
    omega

theorem Found.ge {mask : Nat → Bool} {contrib : Nat → Nat → Nat → Nat} {ps : List Posting} {w w' : W} {gone : List It} {d : Nat}
    (h : Found mask contrib ps w w' gone d) : ∀ it ∈ w'.postings, ∃ e, it.doc = some e ∧ d ≤ e.row := by
  intro it hit
  obtain ⟨e, he, _⟩ := h.inv.live it hit
  obtain ⟨it0, e0, h0, hd0, hr0⟩ := h.head
  refine ⟨e, he, ?_⟩
  have := sorted_head_le h.sorted h0 hd0 hit he
  omega

theorem Found.score {mask : Nat → Bool} {contrib : Nat → Nat → Nat → Nat} {ps : List Posting} {w w' : W} {gone : List It} {d : Nat}
    (hg : Good contrib ps) (h : Found mask contrib ps w w' gone d) :
    scoreLoop contrib d 0 w'.postings = some (docScore contrib ps d) := by
  have hmem : ∀ it ∈ w'.postings ++ gone, it.p ∈ ps := fun it hit => h.inv.perm.mem_iff.1 (List.mem_map.2 ⟨it, hit, rfl⟩)
  rw [scoreLoop_spec w'.postings 0 h.sorted (fun it hit => h.inv.ok it (List.mem_append_left _ hit))
    (fun it hit => hg.sorted _ (hmem it (List.mem_append_left _ hit))) (fun it hit => h.unsk it (List.mem_append_left _ hit)) h.ge]
  rw [← docScore_perm h.inv.perm]
  have hz : docScore contrib (gone.map It.p) d = 0 := by
    unfold docScore
    rw [List.map_map]
    refine sum_zero fun it hit => ?_
    refine part_zero (h.inv.ok it (List.mem_append_right _ hit)) (hg.sorted _ (hmem it (List.mem_append_right _ hit)))
      (h.unsk it (List.mem_append_right _ hit)) ?_
    intro e he
    simp [It.doc, h.inv.dead it hit] at he
  have : docScore contrib ((w'.postings ++ gone).map It.p) d
      = docScore contrib (w'.postings.map It.p) d + docScore contrib (gone.map It.p) d := by
    simp [docScore, List.sum_append_nat]
  rw [this, hz]
  congr 1
  omega

/-- Documents that are passed over cannot be among the best. -/
theorem Found.between {mask : Nat → Bool} {contrib : Nat → Nat → Nat → Nat} {ps : List Posting} {w w' : W} {gone : List It} {d : Nat}
    (hg : Good contrib ps) (h : Found mask contrib ps w w' gone d) {d' : Nat} (hm : mask d' = true) (hhas : ∃ p ∈ ps, p.has d')
    (ha : After w.cur d') (hlt : d' < d) : docScore contrib ps d' < w.threshold := by
  rcases h.inv.skip d' hm ha with hu | hl
  · exfalso
    obtain ⟨p, hp, e, he, hrow⟩ := hhas
    obtain ⟨it, hit, rfl⟩ := List.mem_map.1 (h.inv.perm.mem_iff.2 hp)
    have hrest := hu it hit e he hrow
    rcases List.mem_append.1 hit with hit' | hit'
    · obtain ⟨e', he', hle⟩ := h.ge it hit'
      have := head_le (It.ok_sorted (h.inv.ok it hit) (hg.sorted _ hp)) he' hrest
      omega
    · rw [h.inv.dead it hit'] at hrest
      cases hrest
  · exact hl.2

theorem Ended.rest {mask : Nat → Bool} {contrib : Nat → Nat → Nat → Nat} {ps : List Posting} {w w' : W} {gone : List It}
    (hg : Good contrib ps) (h : Ended mask contrib ps w w' gone) {d : Nat} (hm : mask d = true) (hhas : ∃ p ∈ ps, p.has d)
    (ha : After w.cur d) : docScore contrib ps d < w.threshold := by
  rcases h.inv.skip d hm ha with hu | hl
  · rcases h.ended with he | he
    · exfalso
      obtain ⟨p, hp, e, he', hrow⟩ := hhas
      obtain ⟨it, hit, rfl⟩ := List.mem_map.1 (h.inv.perm.mem_iff.2 hp)
      have hrest := hu it hit e he' hrow
      rw [he, List.nil_append] at hit
      rw [h.inv.dead it hit] at hrest
      cases hrest
    · have h1 := docScore_le_headSum (contrib := contrib) (d := d) h.inv.ok (hg.perm h.inv.perm) hu
      rw [docScore_perm h.inv.perm, headSum_append, headSum_dead h.inv.dead] at h1
      have := headSum_le_ub d w'.postings
      omega
  · exact hl.2

/-- The current document was one of those left, so fewer are left past it. -/
theorem Found.fewer {mask : Nat → Bool} {contrib : Nat → Nat → Nat → Nat} {ps : List Posting} {w w' : W} {gone : List It} {d : Nat}
    (h : Found mask contrib ps w w' gone d) : laterSum (some d) w'.postings < laterSum w.cur w.postings := by
  refine Nat.lt_of_lt_of_le ?_ h.later
  obtain ⟨it, e, h0, hd, hrow⟩ := h.head
  have himp : ∀ x : Entry, Verif.Fts.later (some d) x = true → Verif.Fts.later w.cur x = true := by
    intro x hx
    rw [later_iff] at hx ⊢
    intro c hc
    have := hx d rfl
    have := h.after c hc
    omega
  cases hp : w'.postings with
  | nil => rw [hp] at h0; cases h0
  | cons a l =>
    rw [hp] at h0
    simp only [List.head?_cons, Option.some.injEq] at h0
    subst h0
    simp only [laterSum, List.map_cons, List.sum_cons]
    have h1 : (l.map (fun it => it.rest.countP (Verif.Fts.later (some d)))).sum ≤ (l.map (fun it => it.rest.countP (Verif.Fts.later w.cur))).sum :=
      sum_le_sum fun it _ => List.countP_mono_left fun x _ => himp x
    have h2 : a.rest.countP (Verif.Fts.later (some d)) < a.rest.countP (Verif.Fts.later w.cur) := by
      cases hr : a.rest with
      | nil => simp [It.doc, hr] at hd
      | cons x xs =>
        simp only [It.doc, hr, List.head?_cons, Option.some.injEq] at hd
        subst hd
        have h3 : Verif.Fts.later (some d) x = false := by simp [Verif.Fts.later]; omega
        have h4 : Verif.Fts.later w.cur x = true := later_iff.2 (by rw [hrow]; exact h.after)
        rw [List.countP_cons_of_neg (by rw [h3]; simp), List.countP_cons_of_pos h4]
        have := List.countP_mono_left (l := xs) (p := Verif.Fts.later (some d)) (q := Verif.Fts.later w.cur) fun x _ => himp x
        omega
    omega

/-- Advancing to the document found. -/
theorem Found.inv' {mask : Nat → Bool} {contrib : Nat → Nat → Nat → Nat} {ps : List Posting} {w w' : W} {gone : List It} {d thr : Nat}
    (h : Found mask contrib ps w w' gone d) (hthr : w.threshold ≤ thr) : PInv mask contrib ps thr (some d) w'.postings gone := by
  refine ⟨h.inv.perm, h.inv.dead, h.inv.ok, h.inv.live, ?_⟩
  intro x hm ha
  rcases h.inv.skip x hm (fun c hc => by have := h.after c hc; have := ha d rfl; omega) with hu | hl
  · exact Or.inl hu
  · exact Or.inr ⟨by have := hl.1; omega, by have := hl.2; omega⟩

/-! ## The loop -/

/-- Which documents a query is for. -/
def Wanted (mask : Nat → Bool) (phrase : Bool) (ps : List Posting) (d : Nat) : Prop :=
  mask d = true ∧ (∃ p ∈ ps, p.has d) ∧ (phrase = true → ∃ b, phraseAt ps d b)

theorem not_seen_iff {cur : Option Nat} {d : Nat} : ¬ After cur d ↔ ∃ c, cur = some c ∧ d ≤ c := by
  cases cur with
  | none => simp [After]
  | some c => simp [After]

theorem searchLoop_spec {mask : Nat → Bool} {contrib : Nat → Nat → Nat → Nat} {ps : List Posting} {phrase : Bool} {limit : Nat}
    {scale : Nat → Nat} (lib : Lib) (hg : Good contrib ps) (hpos : phrase = true → GoodPos ps) (hscale : ∀ x, scale x ≤ x)
    (hmono : ∀ a b, a ≤ b → scale a ≤ scale b) (hlimit : 0 < limit) :
    ∀ (n : Nat) (w : W) (gone : List It), PInv mask contrib ps w.threshold w.cur w.postings gone →
      CInv (Wanted mask phrase ps) (docScore contrib ps) limit scale (fun d => ¬ After w.cur d) w.threshold w.cands →
      laterSum w.cur w.postings < n →
      ∃ w', searchLoop lib mask contrib phrase ps.length limit scale n w = some w' ∧
        CInv (Wanted mask phrase ps) (docScore contrib ps) limit scale (fun _ => True) w'.threshold w'.cands := by
  intro n
  induction n with
  | zero => intro w gone _ _ h; omega
  | succ n ih =>
    intro w gone hinv hc hn
    rw [searchLoop]
    obtain ⟨r, w', gone', h1, h2⟩ := next_spec lib hg w gone hinv
    rw [h1]
    rcases h2 with ⟨rfl, h2⟩ | ⟨d, rfl, h2⟩
    · refine ⟨w', rfl, ?_⟩
      rw [h2.thr, h2.cands]
      refine hc.pass hscale (fun _ _ => trivial) ?_
      intro d hok _ hns
      exact h2.rest hg hok.1 hok.2.1 (Classical.not_not.1 hns)
    · simp only
      -- the documents before have been seen
      have hbefore : CInv (Wanted mask phrase ps) (docScore contrib ps) limit scale (fun x => x < d) w'.threshold w'.cands := by
        rw [h2.thr, h2.cands]
        refine hc.pass hscale ?_ ?_
        · intro x hx
          obtain ⟨c, hcur, hxc⟩ := not_seen_iff.1 hx
          have := h2.after c hcur
          omega
        · intro x hok hx hns
          exact h2.between hg hok.1 hok.2.1 (Classical.not_not.1 hns) hx
      have hseen : ∀ x, (x < d ∨ x = d) ↔ ¬ After (some d) x := by
        intro x
        rw [not_seen_iff]
        constructor
        · intro h
          exact ⟨d, rfl, by omega⟩
        · rintro ⟨c, hc, h⟩
          cases hc
          omega
      have hcongr : ∀ {thr cands}, CInv (Wanted mask phrase ps) (docScore contrib ps) limit scale (fun x => x < d ∨ x = d) thr cands →
          CInv (Wanted mask phrase ps) (docScore contrib ps) limit scale (fun x => ¬ After (some d) x) thr cands := by
        intro thr cands h
        exact ⟨h.thr, fun x hok hx => h.done x hok ((hseen x).2 hx), fun c hc => ⟨(h.cand c hc).1, (h.cand c hc).2.1, (hseen _).1 (h.cand c hc).2.2⟩,
          h.nodup, h.le⟩
      -- the document is not wanted
      have hnot : ¬ Wanted mask phrase ps d → ∃ w'', searchLoop lib mask contrib phrase ps.length limit scale n w' = some w'' ∧
          CInv (Wanted mask phrase ps) (docScore contrib ps) limit scale (fun _ => True) w''.threshold w''.cands := by
        intro hnw
        refine ih w' gone' ?_ ?_ ?_
        · rw [h2.cur, h2.thr]
          exact h2.inv' (Nat.le_refl _)
        · rw [h2.cur]
          refine hcongr (hbefore.pass hscale (fun _ h => Or.inl h) ?_)
          intro x hok hx hns
          have : x = d := hx.resolve_left hns
          subst this
          exact absurd hok hnw
        · rw [h2.cur]
          have := h2.fewer
          omega
      -- the document is wanted
      have hyes : Wanted mask phrase ps d → ∃ w'', (match scoreLoop contrib d 0 w'.postings with
          | none => none
          | some s => match offer lib limit scale w' d s with
            | none => none
            | some w' => searchLoop lib mask contrib phrase ps.length limit scale n w') = some w'' ∧
          CInv (Wanted mask phrase ps) (docScore contrib ps) limit scale (fun _ => True) w''.threshold w''.cands := by
        intro hw
        rw [h2.score hg]
        obtain ⟨w2, o1, o2, o3, o4, o5⟩ := offer_spec lib hscale hmono hlimit hbefore hw (Nat.lt_irrefl d)
        simp only [o1]
        refine ih w2 gone' ?_ ?_ ?_
        · rw [o3, o2, h2.cur]
          exact h2.inv' (by rw [← h2.thr]; exact o4)
        · rw [o3, h2.cur]
          exact hcongr o5
        · rw [o3, o2, h2.cur]
          have := h2.fewer
          omega
      have hhas : ∃ p ∈ ps, p.has d := by
        obtain ⟨it, e, h0, hd, hrow⟩ := h2.head
        have hit : it ∈ w'.postings := List.mem_of_mem_head? h0
        refine ⟨it.p, h2.inv.perm.mem_iff.1 (List.mem_map.2 ⟨it, List.mem_append_left _ hit, rfl⟩), e, ?_, hrow⟩
        obtain ⟨pre, hpre⟩ := h2.inv.ok it (List.mem_append_left _ hit)
        rw [hpre]
        exact List.mem_append_right _ (List.mem_of_mem_head? hd)
      cases phrase with
      | false =>
        simp only [Bool.false_eq_true, if_false]
        exact hyes ⟨h2.mask_d, hhas, fun h => (by cases h)⟩
      | true =>
        simp only [if_true]
        have hlen : w'.postings.length + gone'.length = ps.length := by
          have := h2.inv.perm.length_eq
          simpa using this
        by_cases htok : w'.postings.length ≠ ps.length
        · rw [if_pos htok]
          refine ⟨w', rfl, ?_⟩
          -- a token has no further document
          obtain ⟨it, hit⟩ : ∃ it, it ∈ gone' := by
            cases gone' with
            | nil => simp only [List.length_nil] at hlen; omega
            | cons it _ => exact ⟨it, by simp⟩
          refine hbefore.pass hscale (fun _ _ => trivial) ?_
          intro x hok _ hns
          rw [h2.thr]
          have hx : d ≤ x := by omega
          have hafter : After w.cur x := fun c hcur => by have := h2.after c hcur; omega
          rcases h2.inv.skip x hok.1 hafter with hu | hl
          · exfalso
            obtain ⟨b, hb⟩ := hok.2.2 rfl
            obtain ⟨e, he, hrow, _⟩ := hb it.p (h2.inv.perm.mem_iff.1 (List.mem_map.2 ⟨it, List.mem_append_right _ hit, rfl⟩))
            have := hu it (List.mem_append_right _ hit) e he hrow
            rw [h2.inv.dead it hit] at this
            cases this
          · exact hl.2
        · rw [if_neg htok]
          have hgone : gone' = [] := by
            cases gone' with
            | nil => rfl
            | cons _ _ => simp only [List.length_cons] at hlen; omega
          subst hgone
          have hperm : (w'.postings.map It.p).Perm ps := by
            have := h2.inv.perm
            rwa [List.append_nil] at this
          by_cases hlast : (w'.postings.getLast?.bind It.doc).map Entry.row ≠ some d
          · rw [if_pos hlast]
            refine hnot ?_
            intro hw
            -- the last iterator is past the document
            cases hgl : w'.postings.getLast? with
            | none =>
              rw [List.getLast?_eq_none_iff] at hgl
              obtain ⟨it, e, h0, _, _⟩ := h2.head
              rw [hgl] at h0
              cases h0
            | some it =>
              have hit : it ∈ w'.postings := List.mem_of_getLast? hgl
              obtain ⟨e, he, hle⟩ := h2.ge it hit
              rw [hgl] at hlast
              simp only [Option.bind_some, he, Option.map_some, ne_eq, Option.some.injEq] at hlast
              obtain ⟨b, hb⟩ := hw.2.2 rfl
              have hpm : it.p ∈ ps := hperm.mem_iff.1 (List.mem_map.2 ⟨it, hit, rfl⟩)
              obtain ⟨e', he', hrow, _⟩ := hb it.p hpm
              have hr := h2.unsk it (List.mem_append_left _ hit) e' he' hrow
              have := head_le (It.ok_sorted (h2.inv.ok it (List.mem_append_left _ hit)) (hg.sorted _ hpm)) he hr
              omega
          · rw [if_neg hlast]
            have hall : ∀ it ∈ w'.postings, ∃ e ∈ it.p.list, it.doc = some e ∧ e.row = d := by
              intro it hit
              obtain ⟨e, he, hle⟩ := h2.ge it hit
              have hmem : e ∈ it.p.list := by
                obtain ⟨pre, hpre⟩ := h2.inv.ok it (List.mem_append_left _ hit)
                rw [hpre]
                exact List.mem_append_right _ (List.mem_of_mem_head? he)
              refine ⟨e, hmem, he, ?_⟩
              -- it is not after the last
              simp only [ne_eq, Classical.not_not] at hlast
              cases hgl : w'.postings.getLast? with
              | none =>
                rw [List.getLast?_eq_none_iff] at hgl
                rw [hgl] at hit
                cases hit
              | some it1 =>
                rw [hgl] at hlast
                simp only [Option.bind_some] at hlast
                cases hd1 : it1.doc with
                | none => rw [hd1] at hlast; cases hlast
                | some e1 =>
                  rw [hd1] at hlast
                  simp only [Option.map_some, Option.some.injEq] at hlast
                  have hs := h2.sorted
                  obtain ⟨l, hl⟩ := List.getLast?_eq_some_iff.1 hgl
                  rw [hl] at hit hs
                  rcases List.mem_append.1 hit with hit | hit
                  · rw [List.pairwise_append] at hs
                    obtain ⟨e2, he2, hle2⟩ := hs.2.2 it hit it1 (by simp) e1 hd1
                    rw [he] at he2
                    cases he2
                    omega
                  · simp only [List.mem_singleton] at hit
                    subst hit
                    rw [he] at hd1
                    cases hd1
                    exact hlast
            have hmemp : ∀ it ∈ w'.postings, it.p ∈ ps := fun it hit => hperm.mem_iff.1 (List.mem_map.2 ⟨it, hit, rfl⟩)
            obtain ⟨r, hr1, hr2⟩ := checkPositions_spec (its := w'.postings) (d := d) (fun it hit => hg.sorted _ (hmemp it hit))
              (fun it hit => hpos rfl _ (hmemp it hit)) hall
            have hphrase : (∃ b, phraseAt (w'.postings.map It.p) d b) ↔ ∃ b, phraseAt ps d b :=
              ⟨fun ⟨b, hb⟩ => ⟨b, fun p hp => hb p (hperm.mem_iff.2 hp)⟩, fun ⟨b, hb⟩ => ⟨b, fun p hp => hb p (hperm.mem_iff.1 hp)⟩⟩
            rw [hr1]
            cases r with
            | false =>
              simp only
              refine hnot fun hw => ?_
              have := hr2.2 (hphrase.2 (hw.2.2 rfl))
              cases this
            | true =>
              simp only
              exact hyes ⟨h2.mask_d, hhas, fun _ => hphrase.1 (hr2.1 rfl)⟩

/-! ## The whole search -/

theorem insertRow_perm (x : Nat × Nat) (l : List (Nat × Nat)) : (insertRow x l).Perm (x :: l) := by
  induction l with
  | nil => exact List.Perm.refl _
  | cons y l ih =>
    rw [insertRow]
    split
    · exact List.Perm.refl _
    · exact (ih.cons y).trans (List.Perm.swap x y l)

theorem sortRows_perm (l : List (Nat × Nat)) : (sortRows l).Perm l := by
  induction l with
  | nil => exact List.Perm.refl _
  | cons x l ih => exact (insertRow_perm x _).trans (ih.cons x)

theorem insertRow_sorted {x : Nat × Nat} {l : List (Nat × Nat)} (h : (l.map Prod.fst).Pairwise (· ≤ ·)) :
    ((insertRow x l).map Prod.fst).Pairwise (· ≤ ·) := by
  induction l with
  | nil => simp [insertRow]
  | cons y l ih =>
    rw [insertRow]
    rw [List.map_cons, List.pairwise_cons] at h
    split
    · rename_i hle
      rw [List.map_cons, List.pairwise_cons, List.map_cons, List.pairwise_cons]
      refine ⟨?_, h⟩
      intro a ha
      rcases List.mem_cons.1 ha with rfl | ha
      · exact hle
      · exact Nat.le_trans hle (h.1 a ha)
    · rename_i hle
      rw [List.map_cons, List.pairwise_cons]
      refine ⟨?_, ih h.2⟩
      intro a ha
      have := ((insertRow_perm x l).map Prod.fst).mem_iff.1 ha
      rw [List.map_cons] at this
      rcases List.mem_cons.1 this with rfl | this
      · omega
      · exact h.1 a this

theorem sortRows_sorted (l : List (Nat × Nat)) : ((sortRows l).map Prod.fst).Pairwise (· ≤ ·) := by
  induction l with
  | nil => exact List.Pairwise.nil
  | cons x l ih => exact insertRow_sorted ih

/-- The lists that have a selected document. -/
def active (mask : Nat → Bool) (ps : List Posting) : List Posting := ps.filter (fun p => p.list.any (fun e => mask e.row))

theorem new_doc_isSome (mask : Nat → Bool) (p : Posting) : (It.new mask p).doc.isSome = p.list.any (fun e => mask e.row) := by
  show (p.list.dropWhile _).head?.isSome = _
  induction p.list with
  | nil => rfl
  | cons a l ih =>
    rw [List.dropWhile_cons, List.any_cons]
    cases mask a.row with
    | true => rfl
    | false => simpa using ih

theorem new_postings (mask : Nat → Bool) (ps : List Posting) : (W.new mask ps).postings = (active mask ps).map (It.new mask) := by
  unfold W.new active
  simp only
  induction ps with
  | nil => rfl
  | cons p ps ih =>
    rw [List.map_cons, List.filter_cons, List.filter_cons, new_doc_isSome, ih]
    split <;> rfl

theorem search_spec {mask : Nat → Bool} {contrib : Nat → Nat → Nat → Nat} {ps : List Posting} {phrase : Bool} {limit : Nat}
    {scale : Nat → Nat} (lib : Lib) (hg : Good contrib ps) (hpos : phrase = true → GoodPos ps) (hscale : ∀ x, scale x ≤ x)
    (hmono : ∀ a b, a ≤ b → scale a ≤ scale b) :
    ∃ r, search lib mask contrib phrase limit scale ps = some r ∧
      TopK (Wanted mask phrase (active mask ps)) (docScore contrib (active mask ps)) limit r := by
  by_cases hlimit : limit = 0
  · subst hlimit
    refine ⟨[], rfl, List.Pairwise.nil, fun _ h => (by cases h), Nat.le_refl _, fun h => absurd h (Nat.lt_irrefl _), fun _ _ _ _ h => (by cases h)⟩
  · have hmap : (W.new mask ps).postings.map It.p = active mask ps := by
      rw [new_postings, List.map_map]
      exact (List.map_congr_left fun p _ => rfl).trans (List.map_id _)
    have hsub : ∀ p ∈ active mask ps, p ∈ ps := fun p hp => (List.mem_filter.1 hp).1
    have hg' : Good contrib (active mask ps) := ⟨fun p hp => hg.sorted p (hsub p hp), fun p hp => hg.bound p (hsub p hp)⟩
    have hinv : PInv mask contrib (active mask ps) (W.new mask ps).threshold (W.new mask ps).cur (W.new mask ps).postings [] := by
      refine ⟨?_, fun _ h => (by cases h), ?_, ?_, ?_⟩
      · rw [List.append_nil, hmap]
      · intro it hit
        rw [List.append_nil, new_postings] at hit
        obtain ⟨p, _, rfl⟩ := List.mem_map.1 hit
        exact It.ok_new mask p
      · intro it hit
        rw [new_postings] at hit
        obtain ⟨p, hp, rfl⟩ := List.mem_map.1 hit
        have := (List.mem_filter.1 hp).2
        rw [← new_doc_isSome] at this
        obtain ⟨e, he⟩ := Option.isSome_iff_exists.1 this
        exact ⟨e, he, It.new_doc he⟩
      · intro d hm _
        refine Or.inl ?_
        intro it hit e he hrow
        rw [List.append_nil, new_postings] at hit
        obtain ⟨p, hp, rfl⟩ := List.mem_map.1 hit
        exact mem_dropWhile he (by rw [hrow, hm]; rfl)
    have hc : CInv (Wanted mask phrase (active mask ps)) (docScore contrib (active mask ps)) limit scale
        (fun d => ¬ After (W.new mask ps).cur d) (W.new mask ps).threshold (W.new mask ps).cands :=
      ⟨Or.inl rfl, fun d _ h => absurd (fun c hc => by cases hc) h, fun _ h => (by cases h), List.nodup_nil, Nat.zero_le _⟩
    have hlen : (W.new mask ps).postings.length = (active mask ps).length := by rw [new_postings, List.length_map]
    obtain ⟨w', h1, h2⟩ := searchLoop_spec (phrase := phrase) lib hg' (fun h p hp => hpos h p (hsub p hp)) hscale hmono (Nat.pos_of_ne_zero hlimit)
      (remaining (W.new mask ps).postings + 1) (W.new mask ps) [] hinv hc (by
        have : laterSum (W.new mask ps).cur (W.new mask ps).postings ≤ remaining (W.new mask ps).postings :=
          sum_le_sum fun it _ => List.countP_le_length
        omega)
    refine ⟨sortRows w'.cands, ?_, ?_⟩
    · unfold search
      rw [if_neg hlimit]
      simp only [hlen, h1, Option.map_some]
    · have hperm := sortRows_perm w'.cands
      have hmem : ∀ d, d ∈ (sortRows w'.cands).map Prod.fst ↔ d ∈ w'.cands.map Prod.fst := fun d => (hperm.map _).mem_iff
      refine ⟨?_, ?_, ?_, ?_, ?_⟩
      · have hnd : ((sortRows w'.cands).map Prod.fst).Nodup := (hperm.map _).nodup_iff.2 h2.nodup
        have hs := sortRows_sorted w'.cands
        exact (hs.and hnd).imp fun h => Nat.lt_of_le_of_ne h.1 h.2
      · intro x hx
        have := h2.cand x (hperm.mem_iff.1 hx)
        exact ⟨this.1, this.2.1⟩
      · rw [hperm.length_eq]
        exact h2.le
      · intro hlt d hok
        rw [hperm.length_eq] at hlt
        rw [hmem]
        rcases h2.done d hok trivial with h | h
        · exact h
        · have := h.1
          omega
      · intro d hok hnm x hx
        rw [hmem] at hnm
        rcases h2.done d hok trivial with h | h
        · exact absurd h hnm
        · exact h.2 x (hperm.mem_iff.1 hx)

end Verif.Fts
