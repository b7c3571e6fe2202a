import Verif.ListCol.LemmasDecode
/-! Lemmas about the requests and the whole read. -/
namespace Verif.ListCol

variable {α : Type}

/-- The page for lists. -/
def stored (lv : LV) : List Nat × Info := (ends (total lv + 1) 0 lv, ⟨lv.length, total lv + 1, total lv⟩)

theorem head_ge : ∀ (ps : List Info) (io oo : Nat) (r : Rng) (rs : List Rng) (reqs : List Req) (Q : List Rng),
    newRequests (r :: rs) io oo ps = some (reqs, Q) → oo ≤ r.1 → ∃ q Q', Q = q :: Q' ∧ oo ≤ q.1 := by
  intro ps io oo r rs reqs Q h hr
  have sk : ∀ (ps : List Info) (io oo io' oo' : Nat) (ps' : List Info), oo ≤ r.1 →
      skipInfos r.1 io oo ps = some (io', oo', ps') → oo ≤ oo' ∧ oo' ≤ r.1 := by
    intro ps
    induction ps with
    | nil => intro io oo io' oo' ps' _ h; simp [skipInfos] at h
    | cons p ps ih =>
      intro io oo io' oo' ps' hle h
      unfold skipInfos at h
      split at h
      · rename_i hc
        have := ih _ _ _ _ _ hc h
        omega
      · simp only [Option.some.injEq, Prod.mk.injEq] at h
        omega
  unfold newRequests at h
  cases hs : skipInfos r.1 io oo ps with
  | none => rw [hs] at h; simp at h
  | some x =>
    obtain ⟨io', oo', ps'⟩ := x
    rw [hs] at h
    simp only at h
    have hx := sk ps io oo io' oo' ps' hr hs
    cases hc : cutRange r.1 r.2 (r.1 != oo') io' oo' ps' with
    | none => rw [hc] at h; simp at h
    | some y =>
      obtain ⟨reqs', io2, oo2, ps2⟩ := y
      rw [hc] at h
      simp only at h
      cases hn : newRequests rs io2 oo2 ps2 with
      | none => rw [hn] at h; simp at h
      | some z =>
        rw [hn] at h
        simp only [Option.map_some, Option.some.injEq, Prod.mk.injEq] at h
        refine ⟨_, _, h.2.symm, ?_⟩
        split
        · rename_i hne
          have : r.1 ≠ oo' := by simpa using hne
          simp only; omega
        · omega

/-- The requests for the first page, and the rest. -/
theorem page_step (N io oo : Nat) (p : Info) (ps : List Info) (hps : ∀ x ∈ ps, 0 < x.offsetsInPage) (reqs2 : List Req)
    (Q2 : List Rng) : ∀ R : List Rng, Ordered N R → From oo R →
    newRequests (cutAt (oo + p.offsetsInPage) R).2 (io + p.numItems) (oo + p.offsetsInPage) ps = some (reqs2, Q2) →
    ∃ Q b, newRequests R io oo (p :: ps) =
        some ((shift oo (cutAt (oo + p.offsetsInPage) R).1).map (reqOf p.nullAdj io) ++ reqs2, Q) ∧
      inPage oo p.offsetsInPage Q = some ((shift oo (cutAt (oo + p.offsetsInPage) R).1).map offRange, b) ∧
      Agree (oo + p.offsetsInPage) b Q2 := by
  intro R
  induction R generalizing reqs2 Q2 with
  | nil =>
    intro _ _ h
    simp only [cutAt, newRequests, Option.some.injEq, Prod.mk.injEq] at h
    refine ⟨[], [], ?_, rfl, ?_⟩
    · simp [newRequests, cutAt, shift, h.1]
    · rw [← h.2]; rfl
  | cons r rs ih =>
    intro ho hf h
    obtain ⟨h1, h2, h3, h4⟩ := ho
    have hr : oo ≤ r.1 := hf r List.mem_cons_self
    by_cases hp : r.1 < oo + p.offsetsInPage
    · have hstay : skipInfos r.1 io oo (p :: ps) = some (io, oo, p :: ps) := by
        unfold skipInfos; rw [if_neg (by omega)]
      by_cases hl : r.2 ≤ oo + p.offsetsInPage
      · have hcut : cutAt (oo + p.offsetsInPage) (r :: rs) =
            (r :: (cutAt (oo + p.offsetsInPage) rs).1, (cutAt (oo + p.offsetsInPage) rs).2) := by
          conv => lhs; unfold cutAt
          rw [if_pos hp, if_pos hl]
        rw [hcut] at h ⊢
        obtain ⟨Q, b, e1, e2, e3⟩ := ih reqs2 Q2 h4 (fun r' h => hf r' (List.mem_cons_of_mem _ h)) h
        have hcr : cutRange r.1 r.2 (r.1 != oo) io oo (p :: ps) =
            some ([⟨r.2 - r.1, r.1 != oo, p.nullAdj, io⟩], io, oo, p :: ps) := by
          unfold cutRange
          rw [if_neg (by omega), if_pos (by omega)]
        refine ⟨(if r.1 != oo then (r.1 - 1, r.2) else r) :: Q, b, ?_, ?_, e3⟩
        · unfold newRequests
          rw [hstay]
          simp only
          rw [hcr]
          simp only
          rw [e1]
          simp only [Option.map_some, shift, List.map_cons, List.cons_append, List.nil_append, reqOf]
          have ee : (r.1 - oo != 0) = (r.1 != oo) := by
            by_cases hz : r.1 = oo
            · simp [hz]
            · have : r.1 - oo ≠ 0 := by omega
              rw [bne_iff_ne.2 this, bne_iff_ne.2 hz]
          rw [ee, show r.2 - oo - (r.1 - oo) = r.2 - r.1 by omega]
        · by_cases hz : r.1 = oo
          · have : (r.1 != oo) = false := by simp [hz]
            rw [this]
            simp only [Bool.false_eq_true, if_false]
            unfold inPage
            simp only
            rw [if_pos (by omega), show max r.1 oo = r.1 by omega, if_neg (by omega),
              show min (r.1 - oo + (r.2 - r.1)) p.offsetsInPage = r.2 - oo by omega, if_pos (by omega), e2]
            simp only [Option.map_some, shift, List.map_cons, offRange]
            rw [if_pos (by omega), show r.1 - oo = 0 by omega]
          · have : (r.1 != oo) = true := bne_iff_ne.2 hz
            rw [this]
            simp only [if_true]
            unfold inPage
            simp only
            rw [if_pos (by omega), show max (r.1 - 1) oo = r.1 - 1 by omega, if_neg (by omega),
              show min (r.1 - 1 - oo + (r.2 - (r.1 - 1))) p.offsetsInPage = r.2 - oo by omega, if_pos (by omega), e2]
            simp only [Option.map_some, shift, List.map_cons, offRange]
            rw [if_neg (by omega), show r.1 - 1 - oo = r.1 - oo - 1 by omega]
      · have hcut : cutAt (oo + p.offsetsInPage) (r :: rs) =
            ([(r.1, oo + p.offsetsInPage)], (oo + p.offsetsInPage, r.2) :: rs) := by
          unfold cutAt
          rw [if_pos hp, if_neg hl]
        rw [hcut] at h ⊢
        simp only at h ⊢
        cases hpsc : ps with
        | nil => rw [hpsc] at h; simp [newRequests, skipInfos] at h
        | cons p' ps' =>
          have hp' : 0 < p'.offsetsInPage := hps p' (by rw [hpsc]; exact List.mem_cons_self)
          have hst2 : skipInfos (oo + p.offsetsInPage) (io + p.numItems) (oo + p.offsetsInPage) ps =
              some (io + p.numItems, oo + p.offsetsInPage, ps) := by
            rw [hpsc]; unfold skipInfos; rw [if_neg (by omega)]
          unfold newRequests at h
          simp only at h
          rw [hst2] at h
          simp only [bne_self_eq_false, Bool.false_eq_true, if_false] at h
          cases hc : cutRange (oo + p.offsetsInPage) r.2 false (io + p.numItems) (oo + p.offsetsInPage) ps with
          | none => rw [hc] at h; simp at h
          | some y =>
            obtain ⟨reqs', io2, oo2, ps2⟩ := y
            rw [hc] at h
            simp only at h
            cases hn : newRequests rs io2 oo2 ps2 with
            | none => rw [hn] at h; simp at h
            | some z =>
              rw [hn] at h
              simp only [Option.map_some, Option.some.injEq, Prod.mk.injEq] at h
              obtain ⟨hq1, hq2⟩ := h
              have hcr : cutRange r.1 r.2 (r.1 != oo) io oo (p :: ps) =
                  some (⟨oo + p.offsetsInPage - r.1, r.1 != oo, p.nullAdj, io⟩ :: reqs', io2, oo2, ps2) := by
                unfold cutRange
                rw [if_neg (by omega), if_neg (by omega), hc]
                rfl
              refine ⟨(if r.1 != oo then (r.1 - 1, r.2) else r) :: z.2, (if r.1 != oo then (r.1 - 1, r.2) else r) :: z.2,
                ?_, ?_, ?_⟩
              · unfold newRequests
                rw [← hpsc, hstay]
                simp only
                rw [hcr]
                simp only
                rw [hn]
                simp only [Option.map_some, shift, List.map_cons, List.map_nil, List.cons_append, List.nil_append, reqOf,
                  ← hq1]
                have ee : (r.1 - oo != 0) = (r.1 != oo) := by
                  by_cases hz : r.1 = oo
                  · simp [hz]
                  · have : r.1 - oo ≠ 0 := by omega
                    rw [bne_iff_ne.2 this, bne_iff_ne.2 hz]
                rw [ee, show oo + p.offsetsInPage - oo - (r.1 - oo) = oo + p.offsetsInPage - r.1 by omega]
              · by_cases hz : r.1 = oo
                · have : (r.1 != oo) = false := by simp [hz]
                  rw [this]
                  simp only [Bool.false_eq_true, if_false]
                  unfold inPage
                  simp only
                  rw [if_pos (by omega), show max r.1 oo = r.1 by omega, if_neg (by omega),
                    show min (r.1 - oo + (r.2 - r.1)) p.offsetsInPage = p.offsetsInPage by omega, if_neg (by omega)]
                  simp only [shift, List.map_cons, List.map_nil, offRange]
                  rw [if_pos (by omega), show r.1 - oo = 0 by omega,
                    show oo + p.offsetsInPage - oo = p.offsetsInPage by omega]
                · have : (r.1 != oo) = true := bne_iff_ne.2 hz
                  rw [this]
                  simp only [if_true]
                  unfold inPage
                  simp only
                  rw [if_pos (by omega), show max (r.1 - 1) oo = r.1 - 1 by omega, if_neg (by omega),
                    show min (r.1 - 1 - oo + (r.2 - (r.1 - 1))) p.offsetsInPage = p.offsetsInPage by omega,
                    if_neg (by omega)]
                  simp only [shift, List.map_cons, List.map_nil, offRange]
                  rw [if_neg (by omega), show r.1 - 1 - oo = r.1 - oo - 1 by omega,
                    show oo + p.offsetsInPage - oo = p.offsetsInPage by omega]
              · rw [← hq2]
                unfold Agree
                simp only [List.map_cons, clamp]
                congr 1
                by_cases hz : r.1 = oo
                · have : (r.1 != oo) = false := by simp [hz]
                  rw [this]
                  simp only [Bool.false_eq_true, if_false]
                  congr 1; omega
                · have : (r.1 != oo) = true := bne_iff_ne.2 hz
                  rw [this]
                  simp only [if_true]
                  congr 1; omega
    · have hcut : cutAt (oo + p.offsetsInPage) (r :: rs) = ([], r :: rs) := by
        unfold cutAt; rw [if_neg hp]
      rw [hcut] at h ⊢
      simp only at h ⊢
      obtain ⟨q, Q', hq, hge⟩ := head_ge _ _ _ _ _ _ _ h (by omega)
      refine ⟨Q2, Q2, ?_, ?_, rfl⟩
      · simp only [shift, List.map_nil, List.nil_append]
        rw [← h]
        conv => lhs; unfold newRequests
        conv => rhs; unfold newRequests
        rw [show skipInfos r.1 io oo (p :: ps) = skipInfos r.1 (io + p.numItems) (oo + p.offsetsInPage) ps by
          conv => lhs; unfold skipInfos
          rw [if_pos (by omega)]]
      · rw [hq]
        unfold inPage
        simp only
        rw [if_neg (by omega)]
        rfl

theorem takeReqs_page (A io n : Nat) (q : List Req) : ∀ S : List Rng, Ordered n S →
    takeReqs (rows (S.map offRange)) (S.map (reqOf A io) ++ q) = some (S.map (reqOf A io), q) := by
  intro S
  induction S with
  | nil => intro _; simp [rows, takeReqs]
  | cons r rs ih =>
    intro ho
    obtain ⟨h1, h2, h3, h4⟩ := ho
    have hi := ih h4
    rw [List.map_cons, List.map_cons, rows_cons, List.cons_append]
    by_cases h0 : r.1 = 0
    · have e : (offRange r).2 - (offRange r).1 + rows (rs.map offRange) = (r.2 - 1 + rows (rs.map offRange)) + 1 := by
        simp only [offRange, h0, if_true]; omega
      rw [e]
      unfold takeReqs
      have hne : (r.1 != 0) = false := by simp [h0]
      simp only [reqOf, hne, Bool.false_eq_true, if_false]
      rw [if_pos (by omega), show r.2 - 1 + rows (rs.map offRange) + 1 - (r.2 - r.1) = rows (rs.map offRange) by omega]
      rw [hi]; rfl
    · have e : (offRange r).2 - (offRange r).1 + rows (rs.map offRange) = (r.2 - r.1 + rows (rs.map offRange)) + 1 := by
        simp only [offRange, h0, if_false]; omega
      rw [e]
      unfold takeReqs
      have hne : (r.1 != 0) = true := by simpa using h0
      simp only [reqOf, hne, if_true]
      rw [if_pos (by omega), show r.2 - r.1 + rows (rs.map offRange) - (r.2 - r.1) = rows (rs.map offRange) by omega]
      rw [hi]; rfl

theorem shift_ordered {go e : Nat} : ∀ {R : List Rng}, From go R → Ordered e R → Ordered (e - go) (shift go R)
  | [], _, _ => trivial
  | r :: rs, hf, ⟨h1, h2, h3, h4⟩ => by
    have hr := hf r List.mem_cons_self
    refine ⟨by simp only; omega, by simp only; omega, ?_, shift_ordered (fun r' h => hf r' (List.mem_cons_of_mem _ h)) h4⟩
    intro r' h
    obtain ⟨x, hx, rfl⟩ := List.mem_map.1 h
    have := h3 x hx
    simp only; omega

theorem sum_num (A io : Nat) (S : List Rng) : ((S.map (reqOf A io)).map Req.num).sum = rows S := by
  simp [rows, reqOf, Function.comp_def]

/-- Reading the pages. -/
theorem run_lists (items : List α) (readItems : List Rng → Option (List α)) (hr : Reads readItems items) :
    ∀ (lvs : List LV) (f go io : Nat) (R : List Rng), (∀ lv ∈ lvs, 0 < lv.length) → lvs.length ≤ f →
    io + total lvs.flatten ≤ items.length → Ordered (go + lvs.flatten.length) R → From go R →
    ∃ reqs Q, newRequests R io go (lvs.map (fun lv => (stored lv).2)) = some (reqs, Q) ∧
      ∀ Q', Agree go Q Q' →
        ∃ out, runLists readItems f (rows R) ⟨lvs.map (fun lv => (stored lv).1), Q', go⟩ reqs = some out ∧
          out.flatMap Loaded.rows = wanted (cells items io lvs.flatten) (shift go R) ∧
          ∀ l ∈ out, ∃ lv, l.offsets = 0 :: sums 0 lv ∧ l.validity = lv.map Prod.snd ∧ l.items.length = total lv := by
  intro lvs
  induction lvs with
  | nil =>
    intro f go io R _ _ _ ho hf
    cases R with
    | nil =>
      refine ⟨[], [], by simp [newRequests], fun Q' _ => ⟨[], by unfold runLists; simp [rows], rfl, ?_⟩⟩
      intro l h; cases h
    | cons r rs =>
      obtain ⟨h1, h2, _⟩ := ho
      have := hf r List.mem_cons_self
      simp at h2; omega
  | cons lv lvs ih =>
    intro f go io R hne hfu hit ho hf
    have hpos := hne lv List.mem_cons_self
    have hcat : (lv :: lvs).flatten = lv ++ lvs.flatten := by simp
    have hlen : go + (lv :: lvs).flatten.length = go + lv.length + lvs.flatten.length := by simp; omega
    rw [hcat, total_append] at hit
    have hov := ordered_overlap ho
    have hclen : (cells items io lv).length = lv.length := length_cells _ _ _
    have hsplit : wanted (cells items io (lv :: lvs).flatten) (shift go R) =
        wanted (cells items io lv) (shift go (cutAt (go + lv.length) R).1) ++
          wanted (cells items (io + total lv) lvs.flatten) (shift (go + lv.length) (cutAt (go + lv.length) R).2) := by
      rw [hcat, cells_append]
      have := wanted_cut go _ (cells items io lv) (cells items (io + total lv) lvs.flatten) R hov hf
      rw [hclen] at this
      exact this
    have hpn : ∀ x ∈ lvs.map (fun lv => (stored lv).2), 0 < x.offsetsInPage := by
      intro x hx
      obtain ⟨y, hy, rfl⟩ := List.mem_map.1 hx
      exact hne y (List.mem_cons_of_mem _ hy)
    have hno : ∀ f', lvs.length ≤ f' → ∃ reqs Q, newRequests (cutAt (go + lv.length) R).2 (io + total lv) (go + lv.length) (lvs.map (fun lv => (stored lv).2)) = some (reqs, Q) ∧
      ∀ Q', Agree (go + lv.length) Q Q' →
        ∃ out, runLists readItems f' (rows (cutAt (go + lv.length) R).2) ⟨lvs.map (fun lv => (stored lv).1), Q', go + lv.length⟩ reqs = some out ∧
          out.flatMap Loaded.rows = wanted (cells items (io + total lv) lvs.flatten) (shift (go + lv.length) (cutAt (go + lv.length) R).2) ∧
          ∀ l ∈ out, ∃ lv, l.offsets = 0 :: sums 0 lv ∧ l.validity = lv.map Prod.snd ∧ l.items.length = total lv :=
      fun f' hf' => ih f' (go + lv.length) (io + total lv) (cutAt (go + lv.length) R).2
        (fun x h => hne x (List.mem_cons_of_mem _ h)) hf' (by omega) (by rw [← hlen]; exact cutAt_ordered ho)
        (cutAt_from hov)
    obtain ⟨i1, i2, -⟩ := cutAt_inside (e := go + lv.length) hf ho
    have hS := shift_ordered i2 i1
    rw [Nat.add_sub_cancel_left] at hS
    have hplen : (stored lv).1.length = lv.length := length_ends _ _ _
    by_cases hin : (cutAt (go + lv.length) R).1 = []
    · obtain ⟨reqs2, Q2, n1, n2⟩ := hno f (by simp at hfu; omega)
      obtain ⟨Q, b, p1, p2, p3⟩ := page_step _ io go (stored lv).2 (lvs.map (fun lv => (stored lv).2)) hpn reqs2 Q2 R ho hf n1
      refine ⟨_, _, p1, ?_⟩
      intro Q' ha
      have hR2 : rows (cutAt (go + lv.length) R).2 = rows R := by
        have := rows_cut _ (go + lv.length) R hov
        rw [hin] at this
        rw [this]; simp [rows]
      simp only [stored] at p1 p2 p3
      rw [hin] at p1 p2
      have hb : b = Q ∧ ∀ q Q'', Q = q :: Q'' → go + lv.length ≤ q.1 := by
        cases Q with
        | nil => simp [inPage, shift] at p2; exact ⟨p2, fun q Q'' h => (nomatch h)⟩
        | cons q Q'' =>
          unfold inPage at p2
          simp only at p2
          split at p2
          · exfalso
            split at p2
            · cases p2
            · split at p2
              · cases hx : inPage go lv.length Q'' with
                | none => rw [hx] at p2; cases p2
                | some x => rw [hx] at p2; simp [shift] at p2
              · simp [shift] at p2
          · rename_i hc
            simp only [shift, List.map_nil, Option.some.injEq, Prod.mk.injEq] at p2
            refine ⟨p2.2.symm, fun q1 Q1 h => ?_⟩
            cases h; omega
      have ha' : Agree (go + lv.length) Q2 Q' := by
        rw [hb.1] at p3
        exact p3.symm.trans (agree_mono (Nat.le_add_right _ _) ha)
      obtain ⟨out, o1, o2, o3⟩ := n2 Q' ha'
      refine ⟨out, ?_, ?_, o3⟩
      · rw [show (stored lv).2.offsetsInPage = lv.length from rfl, hin]
        simp only [shift, List.map_nil, List.nil_append, List.map_cons]
        rw [← o1, hR2]
        have hsk : ∀ q Q'', Q' = q :: Q'' → go + (stored lv).1.length ≤ q.1 := by
          intro q' Q'' hq
          rw [hplen]
          subst hq
          cases Q with
          | nil => have := agree_nil ha; cases this
          | cons q Q1 =>
            obtain ⟨q2, Q3, e, e1, e2, -⟩ := agree_cons ha
            cases e
            have := hb.2 q Q1 rfl
            omega
        have hn := next_skip (p := (stored lv).1) (ps := lvs.map (fun lv => (stored lv).1)) hsk
        rw [hplen] at hn
        unfold runLists
        rw [hn]
      · rw [o2, hsplit, hin]; rfl
    · cases f with
      | zero => simp at hfu
      | succ f =>
        obtain ⟨reqs2, Q2, n1, n2⟩ := hno f (by simp at hfu; omega)
        obtain ⟨Q, b, p1, p2, p3⟩ := page_step _ io go (stored lv).2 (lvs.map (fun lv => (stored lv).2)) hpn reqs2 Q2 R ho hf n1
        refine ⟨_, _, p1, ?_⟩
        intro Q' ha
        simp only [stored] at p1 p2 p3
        generalize hSd : shift go (cutAt (go + lv.length) R).1 = S at *
        obtain ⟨s, ss, hss⟩ : ∃ s ss, S = s :: ss := by
          cases S with
          | nil => rw [shift] at hSd; exact absurd (List.map_eq_nil_iff.1 hSd) hin
          | cons s ss => exact ⟨s, ss, rfl⟩
        obtain ⟨b', q1, q2⟩ := inPage_agree go lv.length hpos Q Q' ha _ _ p2
        have hrows : rows R = rows S + rows (cutAt (go + lv.length) R).2 := by
          rw [rows_cut _ (go + lv.length) R hov, ← hSd, rows_shift go _ i2]
        have hRpos : rows R ≠ 0 := by
          rw [hrows, hss, rows_cons]
          rw [hss] at hS
          have := hS.1
          omega
        have ha' : Agree (go + lv.length) Q2 b' := p3.symm.trans (agree_mono (Nat.le_add_right _ _) q2)
        obtain ⟨out, o1, o2, o3⟩ := n2 b' ha'
        obtain ⟨l, l1, l2, l3, l4, l5⟩ := loadPage_rows items readItems hr (total lv + 1) io lv (by omega) (by omega) S hS
        have hnext : Job.next ⟨(lv :: lvs).map (fun lv => (stored lv).1), Q', go⟩ =
            some (S.map offRange, S.flatMap (fun r => slice (ends (total lv + 1) 0 lv) (offRange r)),
              ⟨lvs.map (fun lv => (stored lv).1), b', go + lv.length⟩) := by
          unfold Job.next
          cases Q' with
          | nil => simp [inPage, hss] at q1
          | cons q' Q'' =>
            have hlt : q'.1 < go + lv.length := by
              unfold inPage at q1
              split at q1
              · omega
              · simp [hss] at q1
            simp only [List.map_cons]
            rw [skipPages_stay (by rw [hplen]; exact hlt)]
            simp only
            rw [hplen, q1]
            simp only [Option.map_some, List.flatMap_map, stored]
        refine ⟨l :: out, ?_, ?_, ?_⟩
        · unfold runLists
          rw [if_neg hRpos]
          simp only [hnext]
          have htk := takeReqs_page (total lv + 1) io lv.length reqs2 S hS
          rw [show (stored lv).2.nullAdj = total lv + 1 from rfl,
            show (stored lv).2.offsetsInPage = lv.length from rfl, hSd, htk]
          rw [hss] at l1 ⊢
          simp only [List.map_cons]
          rw [← List.map_cons, show (reqOf (total lv + 1) io s).adj = total lv + 1 from rfl, l1]
          simp only
          have hsn := sum_num (total lv + 1) io (s :: ss)
          simp only [List.map_cons] at hsn
          rw [hsn, ← hss, show rows R - rows S = rows (cutAt (go + lv.length) R).2 by omega, o1]
          rfl
        · rw [List.flatMap_cons, l2, o2, hsplit]
        · intro x hx
          rcases List.mem_cons.1 hx with hx | hx
          · subst hx; exact ⟨_, l3, l4, l5⟩
          · exact o3 x hx

end Verif.ListCol
