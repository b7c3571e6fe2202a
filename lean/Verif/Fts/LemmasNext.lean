import Verif.Fts.LemmasIt
/-! # Full text search: the next document -/
namespace Verif.Fts

/-- `d` is past the current document. -/
def After (cur : Option Nat) (d : Nat) : Prop := ∀ c, cur = some c → c < d

/-- The document cannot be among the best any more, and will not be found. -/
def Low (contrib : Nat → Nat → Nat → Nat) (ps : List Posting) (thr : Nat) (its : List It) (d : Nat) : Prop :=
  headSum d its < thr ∧ docScore contrib ps d < thr

/-- What holds for the iterators; `gone` are those at their end that were removed. -/
structure PInv (mask : Nat → Bool) (contrib : Nat → Nat → Nat → Nat) (ps : List Posting) (thr : Nat) (cur : Option Nat)
    (its gone : List It) : Prop where
  perm : ((its ++ gone).map It.p).Perm ps
  dead : ∀ it ∈ gone, it.rest = []
  ok : ∀ it ∈ its ++ gone, it.ok
  live : ∀ it ∈ its, ∃ e, it.doc = some e ∧ mask e.row = true
  skip : ∀ d, mask d = true → After cur d → Unsk d (its ++ gone) ∨ Low contrib ps thr its d

/-- Entries past the current document. -/
def later (cur : Option Nat) (e : Entry) : Bool := cur.all (fun c => decide (c < e.row))

/-- How many entries past the current document are left. -/
def laterSum (cur : Option Nat) (its : List It) : Nat := (its.map (fun it => it.rest.countP (later cur))).sum

theorem later_iff {cur : Option Nat} {e : Entry} : later cur e = true ↔ After cur e.row := by
  cases cur with
  | none => simp [later, After]
  | some c => simp [later, After]

theorem PInv.permIts {mask : Nat → Bool} {contrib : Nat → Nat → Nat → Nat} {ps : List Posting} {thr : Nat} {cur : Option Nat}
    {its its' gone : List It} (h : PInv mask contrib ps thr cur its gone) (hp : its'.Perm its) :
    PInv mask contrib ps thr cur its' gone := by
  have hpp : (its' ++ gone).Perm (its ++ gone) := hp.append_right _
  refine ⟨(hpp.map _).trans h.perm, h.dead, fun it hit => h.ok it (hpp.mem_iff.1 hit), fun it hit => h.live it (hp.mem_iff.1 hit), ?_⟩
  intro d hm ha
  rcases h.skip d hm ha with hu | hl
  · exact Or.inl fun it hit => hu it (hpp.mem_iff.1 hit)
  · exact Or.inr ⟨by rw [headSum_perm hp]; exact hl.1, hl.2⟩

theorem headSum_dead {d : Nat} {l : List It} (h : ∀ it ∈ l, it.rest = []) : headSum d l = 0 :=
  headSum_zero fun it hit e he => by simp [It.doc, h it hit] at he

theorem countP_le_of_sublist {q : Entry → Bool} {a b : List Entry} (h : a.Sublist b) : a.countP q ≤ b.countP q := h.countP_le

theorem It.next_sublist (mask : Nat → Bool) (least : Nat) (it : It) : (it.next mask least).rest.Sublist it.rest :=
  (List.dropWhile_sublist _).trans (List.dropWhile_sublist _)

theorem sum_zero {α} {f : α → Nat} {l : List α} (h : ∀ x ∈ l, f x = 0) : (l.map f).sum = 0 := by
  induction l with
  | nil => rfl
  | cons a l ih => simp [h a (by simp), ih fun x hx => h x (by simp [hx])]

/-- Moving one iterator keeps what holds, if nothing is passed that could still be found. -/
theorem PInv.move {mask : Nat → Bool} {contrib : Nat → Nat → Nat → Nat} {ps : List Posting} {thr : Nat} {cur : Option Nat}
    {its gone : List It} {least : Nat} (lib : Lib) (hg : Good contrib ps) (h : PInv mask contrib ps thr cur its gone) {it : It} {e : Entry}
    (hh : its.head? = some it) (hd : it.doc = some e) (hl : e.row < least)
    (hskip : ∀ d, d < least → mask d = true → After cur d → Low contrib ps thr its d) :
    ∃ gone', PInv mask contrib ps thr cur (moveTerm lib mask least its) gone' ∧ (moveTerm lib mask least its).Pairwise It.le ∧
      remaining (moveTerm lib mask least its) < remaining its ∧
      ∀ c, laterSum c (moveTerm lib mask least its) ≤ laterSum c its := by
  obtain ⟨a, x, b, dead, e', h1, h2, h3, h4, h5, h6, h7⟩ := moveTerm_spec lib mask hh hd hl
  generalize moveTerm lib mask least its = its' at h4 h6 h7
  have hx : x ∈ its := by rw [h1]; simp
  have hxok : x.ok := h.ok x (List.mem_append_left _ hx)
  have hxs : (x.p.list.map Entry.row).Pairwise (· < ·) :=
    hg.sorted _ (h.perm.mem_iff.1 (List.mem_map.2 ⟨x, List.mem_append_left _ hx, rfl⟩))
  have hall : (its' ++ (dead ++ gone)).Perm ((a ++ x.next mask least :: b) ++ gone) := by
    rw [← List.append_assoc]
    exact h4.append_right _
  have hmem : ∀ it ∈ its' ++ (dead ++ gone), it ∈ its ++ gone ∨ it = x.next mask least := by
    intro it hit
    have := hall.mem_iff.1 hit
    rw [h1]
    simp only [List.mem_append, List.mem_cons] at this ⊢
    rcases this with (h | h | h) | h
    · exact Or.inl (Or.inl (Or.inl h))
    · exact Or.inr h
    · exact Or.inl (Or.inl (Or.inr (Or.inr h)))
    · exact Or.inl (Or.inr h)
  have hsum : ∀ d, headSum d its' ≤ headSum d its := by
    intro d
    have e1 : headSum d its' = headSum d (its' ++ dead) := by rw [headSum_append, headSum_dead h5]; rfl
    rw [e1, headSum_perm h4, h1, headSum_append, headSum_append, headSum_cons, headSum_cons]
    have := hub_next (mask := mask) (least := least) (d := d) hxok hxs
    omega
  refine ⟨dead ++ gone, ⟨?_, ?_, ?_, ?_, ?_⟩, h7, ?_, ?_⟩
  · refine (hall.map _).trans ?_
    have e2 : ((a ++ x.next mask least :: b) ++ gone).map It.p = (its ++ gone).map It.p := by
      rw [h1]
      simp only [List.map_append, List.map_cons]
      rfl
    rw [e2]
    exact h.perm
  · intro it hit
    rcases List.mem_append.1 hit with hit | hit
    · exact h5 it hit
    · exact h.dead it hit
  · intro it hit
    rcases hmem it hit with hit | rfl
    · exact h.ok it hit
    · exact It.ok_next hxok
  · intro it hit
    cases hdoc : it.doc with
    | none => exact absurd hdoc (h6 it hit)
    | some e'' =>
      refine ⟨e'', rfl, ?_⟩
      have hit' := h4.mem_iff.1 (List.mem_append_left dead hit)
      rcases List.mem_append.1 hit' with hit' | hit'
      · obtain ⟨e3, he3, hm3⟩ := h.live it (by rw [h1]; exact List.mem_append_left _ hit')
        rw [hdoc] at he3
        cases he3
        exact hm3
      · rcases List.mem_cons.1 hit' with rfl | hit'
        · exact It.next_doc hdoc
        · obtain ⟨e3, he3, hm3⟩ := h.live it (by rw [h1]; exact List.mem_append_right _ (List.mem_cons_of_mem _ hit'))
          rw [hdoc] at he3
          cases he3
          exact hm3
  · intro d hm ha
    by_cases hdl : d < least
    · have := hskip d hdl hm ha
      exact Or.inr ⟨Nat.lt_of_le_of_lt (hsum d) this.1, this.2⟩
    · rcases h.skip d hm ha with hu | hlow
      · refine Or.inl ?_
        intro it hit e3 he3 hrow
        rcases hmem it hit with hit | rfl
        · exact hu it hit e3 he3 hrow
        · exact It.next_mem (hu x (List.mem_append_left _ hx) e3 he3 hrow) (by omega) (by rw [hrow]; exact hm)
      · exact Or.inr ⟨Nat.lt_of_le_of_lt (hsum d) hlow.1, hlow.2⟩
  · have e1 : remaining (its' ++ dead) = remaining its' := by
      unfold remaining
      rw [List.map_append, List.sum_append_nat, sum_zero (l := dead) (fun it hit => by simp [h5 it hit])]
      rfl
    have e2 : remaining (its' ++ dead) = remaining (a ++ x.next mask least :: b) := (h4.map _).sum_nat
    have := It.next_length (mask := mask) h2 h3
    rw [← e1, e2, h1]
    simp only [remaining, List.map_append, List.map_cons, List.sum_append_nat, List.sum_cons]
    omega
  · intro c
    have e1 : laterSum c (its' ++ dead) = laterSum c its' := by
      unfold laterSum
      rw [List.map_append, List.sum_append_nat, sum_zero (l := dead) (fun it hit => by simp [h5 it hit])]
      rfl
    have e2 : laterSum c (its' ++ dead) = laterSum c (a ++ x.next mask least :: b) := (h4.map _).sum_nat
    have := (It.next_sublist mask least x).countP_le (p := later c)
    rw [← e1, e2, h1]
    simp only [laterSum, List.map_append, List.map_cons, List.sum_append_nat, List.sum_cons]
    omega

/-- What is known when the next document has been found. -/
structure Found (mask : Nat → Bool) (contrib : Nat → Nat → Nat → Nat) (ps : List Posting) (w w' : W) (gone : List It) (d : Nat) : Prop where
  thr : w'.threshold = w.threshold
  cands : w'.cands = w.cands
  cur : w'.cur = some d
  inv : PInv mask contrib ps w.threshold w.cur w'.postings gone
  sorted : w'.postings.Pairwise It.le
  after : After w.cur d
  head : ∃ it e, w'.postings.head? = some it ∧ it.doc = some e ∧ e.row = d
  mask_d : mask d = true
  enough : w.threshold ≤ headSum d w'.postings
  later : laterSum w.cur w'.postings ≤ laterSum w.cur w.postings

/-- What is known when there is no further document. -/
structure Ended (mask : Nat → Bool) (contrib : Nat → Nat → Nat → Nat) (ps : List Posting) (w w' : W) (gone : List It) : Prop where
  thr : w'.threshold = w.threshold
  cands : w'.cands = w.cands
  cur : w'.cur = w.cur
  inv : PInv mask contrib ps w.threshold w.cur w'.postings gone
  ended : w'.postings = [] ∨ (w'.postings.map (fun it => it.p.ub)).sum < w.threshold

theorem sorted_head_le {its : List It} (hs : its.Pairwise It.le) {it x : It} {e e' : Entry} (hh : its.head? = some it)
    (hd : it.doc = some e) (hx : x ∈ its) (hxd : x.doc = some e') : e.row ≤ e'.row := by
  cases its with
  | nil => cases hx
  | cons a l =>
    simp only [List.head?_cons, Option.some.injEq] at hh
    subst hh
    rcases List.mem_cons.1 hx with rfl | hx
    · rw [hd] at hxd
      cases hxd
      exact Nat.le_refl _
    · rw [List.pairwise_cons] at hs
      obtain ⟨e'', he'', hle⟩ := hs.1 x hx e' hxd
      rw [hd] at he''
      cases he''
      exact hle

theorem nextLoop_spec {mask : Nat → Bool} {contrib : Nat → Nat → Nat → Nat} {ps : List Posting} (lib : Lib) (hg : Good contrib ps) :
    ∀ (n : Nat) (w : W) (gone : List It), PInv mask contrib ps w.threshold w.cur w.postings gone → w.postings.Pairwise It.le →
      remaining w.postings < n →
      ∃ r w' gone', nextLoop lib mask n w = some (r, w') ∧
        ((r = none ∧ Ended mask contrib ps w w' gone') ∨ ∃ d, r = some d ∧ Found mask contrib ps w w' gone' d) := by
  intro n
  induction n with
  | zero => intro w gone _ _ h; omega
  | succ n ih =>
    intro w gone hinv hs hn
    rw [nextLoop]
    cases hp : findPivot w.threshold 0 w.postings with
    | none =>
      refine ⟨none, w, gone, rfl, Or.inl ⟨rfl, rfl, rfl, rfl, hinv, ?_⟩⟩
      rcases findPivot_none hp with h | h
      · exact Or.inl h
      · exact Or.inr (by omega)
    | some pv =>
      obtain ⟨pre, post, hsplit, hpre, hthr⟩ := findPivot_some hp
      have hpv : pv ∈ w.postings := by rw [hsplit]; simp
      obtain ⟨e, he, hme⟩ := hinv.live pv hpv
      -- the first iterator
      have hfirst : ∃ it0 e0, w.postings.head? = some it0 ∧ it0.doc = some e0 ∧ e0.row ≤ e.row := by
        cases hw : w.postings with
        | nil => rw [hw] at hpv; cases hpv
        | cons it0 l =>
          obtain ⟨e0, he0, _⟩ := hinv.live it0 (by rw [hw]; simp)
          exact ⟨it0, e0, rfl, he0, sorted_head_le hs (by rw [hw]; rfl) he0 hpv he⟩
      obtain ⟨it0, e0, hh0, hd0, hle0⟩ := hfirst
      -- after moving a term, the rest of the loop
      have hcont : ∀ least, e0.row < least → (∀ d, d < least → mask d = true → After w.cur d → Low contrib ps w.threshold w.postings d) →
          ∃ r w' gone', nextLoop lib mask n { w with postings := moveTerm lib mask least w.postings } = some (r, w') ∧
            ((r = none ∧ Ended mask contrib ps w w' gone') ∨ ∃ d, r = some d ∧ Found mask contrib ps w w' gone' d) := by
        intro least hl hskip
        obtain ⟨gone1, i1, i2, i3, i4⟩ := hinv.move lib hg hh0 hd0 hl hskip
        obtain ⟨r, w', gone', h1, h2⟩ := ih { w with postings := moveTerm lib mask least w.postings } gone1 i1 i2 (by simp only; omega)
        refine ⟨r, w', gone', h1, ?_⟩
        rcases h2 with ⟨hr, h2⟩ | ⟨d, hr, h2⟩
        · exact Or.inl ⟨hr, h2.thr, h2.cands, h2.cur, h2.inv, h2.ended⟩
        · exact Or.inr ⟨d, hr, h2.thr, h2.cands, h2.cur, h2.inv, h2.sorted, h2.after, h2.head, h2.mask_d, h2.enough,
            Nat.le_trans h2.later (i4 _)⟩
      simp only [he]
      by_cases hc : w.cur.any (fun c => decide (e.row ≤ c)) = true
      · rw [if_pos hc]
        cases hcur : w.cur with
        | none => rw [hcur] at hc; cases hc
        | some c =>
          rw [hcur] at hc hcont
          simp only [Option.any_some, decide_eq_true_eq] at hc
          exact hcont (c + 1) (by omega) fun d hd _ ha => by
            have := ha c rfl
            omega
      · rw [if_neg hc]
        have hafter : After w.cur e.row := by
          intro c hcur
          rw [hcur] at hc
          simpa using hc
        have hheadrow : (w.postings.head?.bind It.doc).map Entry.row = some e0.row := by rw [hh0]; simp [hd0]
        rw [hheadrow]
        by_cases heq : e0.row = e.row
        · rw [if_pos (by rw [heq])]
          refine ⟨some e.row, { w with cur := some e.row }, gone, rfl, Or.inr ⟨e.row, rfl, rfl, rfl, rfl, hinv, hs, hafter,
            ⟨it0, e0, hh0, hd0, heq⟩, hme, ?_, Nat.le_refl _⟩⟩
          show w.threshold ≤ headSum e.row w.postings
          -- all iterators up to the pivot are at the document
          have hsum : (pre.map (fun it => it.p.ub)).sum ≤ headSum e.row pre := by
            refine sum_le_sum fun it hit => ?_
            have hit' : it ∈ w.postings := by rw [hsplit]; exact List.mem_append_left _ hit
            obtain ⟨e1, he1, _⟩ := hinv.live it hit'
            have : It.le it pv := by
              rw [hsplit, List.pairwise_append] at hs
              exact hs.2.2 it hit pv (by simp)
            obtain ⟨e2, he2, hle⟩ := this e he
            unfold hub
            rw [he2]
            simp only
            rw [if_pos hle]
            exact Nat.le_refl _
          have hpvs : hub e.row pv = pv.p.ub := by
            unfold hub
            rw [he]
            simp
          rw [hsplit, headSum_append, headSum_cons, hpvs]
          omega
        · rw [if_neg (by simpa using heq)]
          refine hcont e.row (by omega) fun d hd hm ha => ?_
          have hpre' : (pre.map (fun it => it.p.ub)).sum < w.threshold := by
            rcases hpre with h | h
            · exfalso
              subst h
              rw [hsplit] at hh0
              simp only [List.nil_append, List.head?_cons, Option.some.injEq] at hh0
              subst hh0
              rw [hd0] at he
              cases he
              exact heq rfl
            · omega
          rcases hinv.skip d hm ha with hu | hlow
          · have hsum : headSum d w.postings ≤ (pre.map (fun it => it.p.ub)).sum := by
              rw [hsplit, headSum_append]
              have hz : headSum d (pv :: post) = 0 := by
                refine headSum_zero fun it hit e1 he1 => ?_
                have hs' := hs
                rw [hsplit, List.pairwise_append] at hs'
                have := sorted_head_le hs'.2.1 rfl he hit he1
                omega
              rw [hz]
              exact headSum_le_ub d pre
            refine ⟨by omega, ?_⟩
            have h1 := docScore_le_headSum (contrib := contrib) (d := d) hinv.ok (hg.perm hinv.perm) hu
            rw [docScore_perm hinv.perm, headSum_append, headSum_dead hinv.dead] at h1
            omega
          · exact hlow

theorem next_spec {mask : Nat → Bool} {contrib : Nat → Nat → Nat → Nat} {ps : List Posting} (lib : Lib) (hg : Good contrib ps)
    (w : W) (gone : List It) (h : PInv mask contrib ps w.threshold w.cur w.postings gone) :
      ∃ r w' gone', next lib mask w = some (r, w') ∧
        ((r = none ∧ Ended mask contrib ps w w' gone') ∨ ∃ d, r = some d ∧ Found mask contrib ps w w' gone' d) := by
  have hp := lib.sort_perm w.postings
  have hr : remaining (lib.sort w.postings) = remaining w.postings := (hp.map _).sum_nat
  obtain ⟨r, w', gone', h1, h2⟩ := nextLoop_spec lib hg (remaining w.postings + 1) { w with postings := lib.sort w.postings } gone
    (h.permIts hp) (lib.sort_sorted _) (by simp only; omega)
  refine ⟨r, w', gone', h1, ?_⟩
  rcases h2 with ⟨hr, h2⟩ | ⟨d, hr, h2⟩
  · exact Or.inl ⟨hr, h2.thr, h2.cands, h2.cur, h2.inv, h2.ended⟩
  · exact Or.inr ⟨d, hr, h2.thr, h2.cands, h2.cur, h2.inv, h2.sorted, h2.after, h2.head, h2.mask_d, h2.enough,
      Nat.le_trans h2.later (Nat.le_of_eq (hp.map _).sum_nat)⟩

end Verif.Fts
