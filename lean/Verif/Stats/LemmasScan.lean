import Verif.Stats.LemmasCollect

/-! # Lemmas: scans with statistics -/
namespace Verif.Stats

theorem eval_congr (e : Expr) {row row' : Nat → Option Val} (h : ∀ f ∈ e.cols, row f = row' f) : e.eval row = e.eval row' := by
  induction e with
  | lit b => rfl
  | cmp op f v => unfold Expr.eval; rw [h f (by simp [Expr.cols])]
  | isNull f => unfold Expr.eval; rw [h f (by simp [Expr.cols])]
  | and a b iha ihb =>
    unfold Expr.eval
    rw [iha (fun f hf => h f (List.mem_append_left _ hf)), ihb (fun f hf => h f (List.mem_append_right _ hf))]
  | or a b iha ihb =>
    unfold Expr.eval
    rw [iha (fun f hf => h f (List.mem_append_left _ hf)), ihb (fun f hf => h f (List.mem_append_right _ hf))]
  | not a iha => unfold Expr.eval; rw [iha h]

/-- A loaded row. -/
def loaded (p : Page) (withId : Bool) (fields : List Nat) (o : Nat) : Out :=
  { rowid := if withId then some (if p.live o then some (p.rowid o) else none) else none
    addr := some (if p.live o then some (p.addr o) else none)
    vals := fields.map (fun f => (f, p.cell o f)) }

theorem find_map {fields : List Nat} {g : Nat → Option Val} {f : Nat} (h : f ∈ fields) :
    (fields.map (fun f => (f, g f))).find? (fun x => x.1 == f) = some (f, g f) := by
  induction fields with
  | nil => exact nomatch h
  | cons x fs ih =>
    rw [List.map_cons, List.find?_cons]
    by_cases hx : x = f
    · subst hx; simp
    · have : (x == f) = false := by simpa using hx
      simp only [this]
      rcases List.mem_cons.1 h with h | h
      · exact absurd h.symm hx
      · exact ih h

theorem get_map {fields : List Nat} {g : Nat → Option Val} {f : Nat} (h : f ∈ fields) (i a : Option (Option Nat)) :
    Out.get ⟨i, a, fields.map (fun f => (f, g f))⟩ f = g f := by
  unfold Out.get
  rw [find_map h]
  rfl

theorem loaded_eval (p : Page) (withId : Bool) (e : Expr) (o : Nat) :
    e.eval (loaded p withId e.cols.eraseDups o).get = e.eval (p.cell o) := by
  apply eval_congr
  intro f hf
  exact get_map (List.mem_eraseDups.2 hf) _ _

theorem readCols_nulls (p : Page) (sel : List Nat) (withId : Bool) (fields : List Nat) :
    readCols p sel true withId true fields = sel.map (loaded p withId fields) := by
  unfold readCols
  have : sel.filter (fun o => p.live o || true) = sel := List.filter_eq_self.2 (fun o _ => by simp)
  rw [this]
  rfl

theorem loaded_live (p : Page) (withId : Bool) (fields : List Nat) (o : Nat) :
    ((loaded p withId fields o).addr.bind id != none) = p.live o := by
  unfold loaded
  cases p.live o <;> rfl

theorem mapM_map {α β γ : Type} (f : β → Option γ) (g : α → β) (k : α → γ) (l : List α) (h : ∀ x ∈ l, f (g x) = some (k x)) :
    (l.map g).mapM f = some (l.map k) := by
  induction l with
  | nil => rfl
  | cons x l ih =>
    rw [List.map_cons, List.mapM_cons, h x List.mem_cons_self, ih (fun y hy => h y (List.mem_cons_of_mem _ hy))]
    rfl

theorem zipWith_map {α : Type} (f : Out → Out → Out) (g h : α → Out) (l : List α) :
    List.zipWith f (l.map g) (l.map h) = l.map (fun x => f (g x) (h x)) := by
  induction l with
  | nil => rfl
  | cons x l ih => simp [ih]

/-- The rest of the columns is read for the rows that were selected, and the columns are put in order. -/
theorem finish_ok (p : Page) (proj : List Nat) (withId withAddr : Bool) (e : Expr) (sel live : List Nat)
    (hs : sel.filter p.live = live) :
    (((if (proj.filter (fun f => !e.cols.contains f)).isEmpty then some (live.map (loaded p withId e.cols.eraseDups))
      else
        if (readCols p sel false false false (proj.filter (fun f => !e.cols.contains f))).length =
            (live.map (loaded p withId e.cols.eraseDups)).length
        then some (List.zipWith mergeRow (live.map (loaded p withId e.cols.eraseDups))
          (readCols p sel false false false (proj.filter (fun f => !e.cols.contains f))))
        else none) : Option (List Out)).bind (fun rows => rows.mapM (finalProjection proj withId withAddr))) =
      some (live.map (outRow proj withId withAddr p)) := by
  have hlive : ∀ o ∈ live, p.live o = true := by
    intro o ho
    rw [← hs] at ho
    exact (List.mem_filter.1 ho).2
  have hcontains : ∀ f, e.cols.contains f = true ↔ f ∈ e.cols.eraseDups := by
    intro f
    rw [List.mem_eraseDups, List.contains_iff_mem]
  by_cases hr : (proj.filter (fun f => !e.cols.contains f)).isEmpty = true
  · rw [if_pos hr, Option.bind_some]
    apply mapM_map
    intro o ho
    have hin : ∀ f ∈ proj, f ∈ e.cols.eraseDups := by
      intro f hf
      rw [← hcontains]
      have := List.isEmpty_iff.1 hr
      have := List.filter_eq_nil_iff.1 this f hf
      simpa using this
    unfold finalProjection
    have hall : proj.all (fun f => (loaded p withId e.cols.eraseDups o).vals.any (fun x => x.1 == f)) = true := by
      rw [List.all_eq_true]
      intro f hf
      rw [List.any_eq_true]
      exact ⟨(f, p.cell o f), List.mem_map.2 ⟨f, hin f hf, rfl⟩, by simp⟩
    rw [if_pos hall]
    congr 1
    unfold outRow loaded
    rw [hlive o ho]
    simp only [Out.mk.injEq]
    refine ⟨by cases withId <;> rfl, rfl, ?_⟩
    apply List.map_congr_left
    intro f hf
    rw [get_map (hin f hf)]
  · rw [if_neg hr]
    have hrest : readCols p sel false false false (proj.filter (fun f => !e.cols.contains f)) =
        live.map (fun o => (⟨none, none, (proj.filter (fun f => !e.cols.contains f)).map (fun f => (f, p.cell o f))⟩ : Out)) := by
      unfold readCols
      have : (fun o => p.live o || false) = p.live := by funext o; exact Bool.or_false _
      rw [this, hs]
      rfl
    rw [hrest, if_pos (by rw [List.length_map, List.length_map]), Option.bind_some, zipWith_map]
    apply mapM_map
    intro o ho
    have hvals : (mergeRow (loaded p withId e.cols.eraseDups o)
        ⟨none, none, (proj.filter (fun f => !e.cols.contains f)).map (fun f => (f, p.cell o f))⟩).vals =
        (e.cols.eraseDups ++ proj.filter (fun f => !e.cols.contains f)).map (fun f => (f, p.cell o f)) := by
      unfold mergeRow loaded
      rw [List.map_append]
    have hin : ∀ f ∈ proj, f ∈ e.cols.eraseDups ++ proj.filter (fun f => !e.cols.contains f) := by
      intro f hf
      rw [List.mem_append, ← hcontains, List.mem_filter]
      cases e.cols.contains f <;> simp [hf]
    generalize hm : mergeRow (loaded p withId e.cols.eraseDups o)
        ⟨none, none, (proj.filter (fun f => !e.cols.contains f)).map (fun f => (f, p.cell o f))⟩ = m at hvals
    have hid : m.rowid = (loaded p withId e.cols.eraseDups o).rowid := by rw [← hm]; rfl
    have had : m.addr = (loaded p withId e.cols.eraseDups o).addr := by rw [← hm]; rfl
    obtain ⟨mi, ma, mv⟩ := m
    simp only at hvals hid had
    subst hvals
    unfold finalProjection
    have hall : proj.all (fun f => ((e.cols.eraseDups ++ proj.filter (fun f => !e.cols.contains f)).map
        (fun f => (f, p.cell o f))).any (fun x => x.1 == f)) = true := by
      rw [List.all_eq_true]
      intro f hf
      rw [List.any_eq_true]
      exact ⟨(f, p.cell o f), List.mem_map.2 ⟨f, hin f hf, rfl⟩, by simp⟩
    rw [if_pos hall]
    congr 1
    unfold outRow
    simp only [Out.mk.injEq]
    rw [hid, had]
    unfold loaded
    rw [hlive o ho]
    refine ⟨by cases withId <;> rfl, rfl, ?_⟩
    apply List.map_congr_left
    intro f hf
    rw [get_map (hin f hf)]

/-- The rows of an array result. -/
theorem sel_eq (p : Page) (withId : Bool) (e : Expr) (fields : List Nat) (n : Nat) :
    ((List.range ((List.range n).map (loaded p withId fields)).length).zip
      ((((List.range n).map (fun o => e.eval (p.cell o))).zip ((List.range n).map (loaded p withId fields))))).filterMap (fun x =>
        if x.2.1.getD false && (x.2.2.addr.bind id != none) then some x.1 else none) =
    (List.range n).filter (fun o => p.live o && decide (e.eval (p.cell o) = some true)) := by
  rw [List.length_map, List.length_range]
  have hz : ∀ (l : List Nat), (l.zip ((l.map (fun o => e.eval (p.cell o))).zip (l.map (loaded p withId fields)))) =
      l.map (fun o => (o, e.eval (p.cell o), loaded p withId fields o)) := by
    intro l
    induction l with
    | nil => rfl
    | cons x l ih => simp [ih]
  rw [hz, List.filterMap_map]
  generalize List.range n = l
  induction l with
  | nil => rfl
  | cons o l ih =>
    have hb : (Option.getD (e.eval (p.cell o)) false && ((loaded p withId fields o).addr.bind id != none)) =
        (p.live o && decide (e.eval (p.cell o) = some true)) := by
      rw [loaded_live, Bool.and_comm]
      congr 1
      cases e.eval (p.cell o) with
      | none => rfl
      | some b => cases b <;> rfl
    rw [List.filterMap_cons, List.filter_cons]
    simp only [Function.comp]
    rw [hb]
    by_cases hc : (p.live o && decide (e.eval (p.cell o) = some true)) = true
    · rw [if_pos hc, if_pos hc]
      simp only
      rw [← ih]
    · rw [if_neg hc, if_neg hc]
      rw [← ih]

/-- One batch: the rows that are live and satisfy the predicate. -/
theorem readBatch_ok {evaluate : Expr → List Out → Columnar} (he : Evaluates evaluate) (proj : List Nat) (withId withAddr : Bool)
    (p : Page) (pred : Expr) :
    readBatch evaluate proj withId withAddr p pred = some ((selected pred p).map (outRow proj withId withAddr p)) := by
  by_cases h1 : pred = .lit (some true)
  · subst h1
    have hsel : selected (.lit (some true)) p = (List.range p.size).filter p.live := by
      unfold selected
      congr 1
      funext o
      simp [Expr.eval]
    rw [hsel]
    show (readCols p (List.range p.size) false withId withAddr proj).mapM (finalProjection proj withId withAddr) = _
    unfold readCols
    have : (fun o => p.live o || false) = p.live := by funext o; exact Bool.or_false _
    rw [this]
    apply mapM_map
    intro o ho
    have hlive := (List.mem_filter.1 ho).2
    unfold finalProjection
    have hall : proj.all (fun f => (proj.map (fun f => (f, p.cell o f))).any (fun x => x.1 == f)) = true := by
      rw [List.all_eq_true]
      intro f hf
      rw [List.any_eq_true]
      exact ⟨(f, p.cell o f), List.mem_map.2 ⟨f, hf, rfl⟩, by simp⟩
    rw [if_pos hall, hlive]
    congr 1
    unfold outRow
    simp only [Out.mk.injEq]
    refine ⟨by cases withId <;> rfl, by cases withAddr <;> rfl, ?_⟩
    apply List.map_congr_left
    intro f hf
    rw [get_map hf]
  · by_cases h2 : pred = .lit (some false)
    · subst h2
      have hsel : selected (.lit (some false)) p = [] := by
        unfold selected
        rw [List.filter_eq_nil_iff]
        intro o _
        simp [Expr.eval]
      rw [hsel]
      rfl
    · unfold readBatch
      split
      · exact absurd rfl h1
      · exact absurd rfl h2
      · rename_i e _ _
        simp only [readCols_nulls]
        have hev := he pred ((List.range p.size).map (loaded p withId pred.cols.eraseDups))
        cases hc : evaluate pred ((List.range p.size).map (loaded p withId pred.cols.eraseDups)) with
        | scalar b =>
          rw [hc] at hev
          have hall : ∀ o < p.size, pred.eval (p.cell o) = b := by
            intro o ho
            rw [← loaded_eval p withId]
            exact hev _ (List.mem_map.2 ⟨o, List.mem_range.2 ho, rfl⟩)
          cases b with
          | none =>
            have hsel : selected pred p = [] := by
              unfold selected
              rw [List.filter_eq_nil_iff]
              intro o ho
              rw [hall o (List.mem_range.1 ho)]
              simp
            simp only
            rw [hsel]
            rfl
          | some b =>
            cases b with
            | false =>
              have hsel : selected pred p = [] := by
                unfold selected
                rw [List.filter_eq_nil_iff]
                intro o ho
                rw [hall o (List.mem_range.1 ho)]
                simp
              simp only
              rw [hsel]
              rfl
            | true =>
              have hsel : selected pred p = (List.range p.size).filter p.live := by
                unfold selected
                apply List.filter_congr
                intro o ho
                rw [hall o (List.mem_range.1 ho)]
                simp
              have hf : ((List.range p.size).map (loaded p withId pred.cols.eraseDups)).filter (fun r => r.addr.bind id != none) =
                  ((List.range p.size).filter p.live).map (loaded p withId pred.cols.eraseDups) := by
                rw [List.filter_map]
                congr 1
                apply List.filter_congr
                intro o _
                exact loaded_live p withId _ o
              simp only
              rw [hf, hsel]
              exact finish_ok p proj withId withAddr pred (List.range p.size) _ rfl
        | array l =>
          rw [hc] at hev
          have hl : l = (List.range p.size).map (fun o => pred.eval (p.cell o)) := by
            rw [show l = _ from hev, List.map_map]
            apply List.map_congr_left
            intro o _
            exact loaded_eval p withId pred o
          simp only
          rw [hl, sel_eq]
          rw [show (List.range p.size).filter (fun o => p.live o && decide (pred.eval (p.cell o) = some true)) = selected pred p from rfl]
          have hlt : ∀ o ∈ selected pred p, o < p.size := by
            intro o ho
            exact List.mem_range.1 (List.mem_filter.1 ho).1
          have hrows : (selected pred p).filterMap (fun i => ((List.range p.size).map (loaded p withId pred.cols.eraseDups))[i]?) =
              (selected pred p).map (loaded p withId pred.cols.eraseDups) := by
            generalize selected pred p = sel at hlt
            induction sel with
            | nil => rfl
            | cons o sel ih =>
              have := hlt o List.mem_cons_self
              rw [List.filterMap_cons, List.getElem?_map, List.getElem?_range this, Option.map_some]
              simp only
              rw [ih (fun x hx => hlt x (List.mem_cons_of_mem _ hx))]
              rfl
          rw [hrows]
          have hself : (selected pred p).filter p.live = selected pred p := by
            rw [List.filter_eq_self]
            intro o ho
            have := (List.mem_filter.1 ho).2
            rw [Bool.and_eq_true] at this
            exact this.1
          by_cases hemp : (selected pred p).isEmpty = true
          · rw [if_pos hemp]
            rw [List.isEmpty_iff.1 hemp]
            rfl
          · rw [if_neg hemp]
            exact finish_ok p proj withId withAddr pred (selected pred p) _ hself

/-- The predicate of a batch selects what the predicate of the scan selects. -/
theorem simplified_ok {simp : List (Nat × Guar) → Expr → Option Expr} (hs : SoundSimp simp) (nullable : Nat → Bool) (pred : Expr)
    (p : Page) (st : Option Stats)
    (hg : ∀ t, st = some t → ∀ f ∈ pred.cols, ∀ s, t f = some s → ∀ o < p.size, (guarantee (nullable f) p.size s).Holds (p.cell o f)) :
    selected (simplified simp nullable pred p st) p = selected pred p := by
  cases st with
  | none => rfl
  | some t =>
    unfold simplified
    simp only
    cases hc : simp (pred.cols.eraseDups.filterMap (fun f => (t f).map (fun s => (f, guarantee (nullable f) p.size s)))) pred with
    | none => rfl
    | some e' =>
      rw [Option.getD_some]
      unfold selected
      apply List.filter_congr
      intro o ho
      congr 1
      have := hs _ _ _ hc (p.cell o) (by
        intro g hgm
        rw [List.mem_filterMap] at hgm
        obtain ⟨f, hf, hm⟩ := hgm
        rw [Option.map_eq_some_iff] at hm
        obtain ⟨s, hs1, hs2⟩ := hm
        subst hs2
        exact hg t rfl f (List.mem_eraseDups.1 hf) s hs1 o (List.mem_range.1 ho))
      rw [decide_eq_decide]
      exact this

theorem selected_false (p : Page) : selected (.lit (some false)) p = [] := by
  unfold selected
  rw [List.filter_eq_nil_iff]
  intro o _
  simp [Expr.eval]

theorem scan_ok {simp : List (Nat × Guar) → Expr → Option Expr} (hs : SoundSimp simp) {evaluate : Expr → List Out → Columnar}
    (he : Evaluates evaluate) (nullable : Nat → Bool) (proj : List Nat) (withId withAddr : Bool) (pred : Expr)
    (pages : List (Page × Option Stats))
    (hg : ∀ x ∈ pages, ∀ t, x.2 = some t → ∀ f ∈ pred.cols, ∀ s, t f = some s →
      ∀ o < x.1.size, (guarantee (nullable f) x.1.size s).Holds (x.1.cell o f)) :
    scan simp evaluate nullable proj withId withAddr pred pages =
      some (pages.flatMap (fun x => (selected pred x.1).map (outRow proj withId withAddr x.1))) := by
  unfold scan
  induction pages with
  | nil => rfl
  | cons x pages ih =>
    have ih := ih (fun y hy => hg y (List.mem_cons_of_mem _ hy))
    have hx := simplified_ok hs nullable pred x.1 x.2 (hg x List.mem_cons_self)
    rw [List.map_cons, List.filter_cons, List.flatMap_cons]
    simp only
    by_cases hf : simplified simp nullable pred x.1 x.2 = .lit (some false)
    · rw [hf, selected_false] at hx
      rw [hf, if_neg (by simp), ih, ← hx]
      rfl
    · rw [if_pos (by simpa using hf), List.mapM_cons, readBatch_ok he, hx]
      rw [Option.map_eq_some_iff] at ih
      obtain ⟨l, hl1, hl2⟩ := ih
      rw [hl1, ← hl2]
      rfl

end Verif.Stats
