import Verif.Mini.LemmasPage
/-!
# Mini-block pages: fixed width values, and when writing succeeds
-/
namespace Verif.Mini

variable {V : Type}

/-! ### The codec of fixed width values -/

theorem logLoop_ok (bpv : Nat) (fuel : Nat) : ∀ (size log num : Nat), size = bpv * num → num = 2 ^ log → size < 8186 →
    num < 4096 → 0 < log →
    (logLoop fuel size log num).2 = 2 ^ (logLoop fuel size log num).1 ∧ 0 < (logLoop fuel size log num).1 ∧
      bpv * (logLoop fuel size log num).2 < 8186 ∧ (logLoop fuel size log num).2 < 4096 := by
  induction fuel with
  | zero =>
    intro size log num h1 h2 h3 h4 h5
    exact ⟨h2, h5, by show bpv * num < 8186; rw [← h1]; exact h3, h4⟩
  | succ fuel ih =>
    intro size log num h1 h2 h3 h4 h5
    rw [logLoop]
    by_cases hc : 2 * size < 8186 ∧ 2 * num < 4096
    · rw [if_pos hc]
      exact ih (size * 2) (log + 1) (num * 2) (by rw [h1, Nat.mul_assoc]) (by rw [h2, Nat.pow_succ]) (by omega) (by omega)
        (by omega)
    · rw [if_neg hc]
      exact ⟨h2, h5, by rw [← h1]; exact h3, h4⟩

theorem findLog_ok (bpv log num : Nat) (h : findLog bpv = some (log, num)) :
    num = 2 ^ log ∧ 0 < log ∧ bpv * num < 8186 ∧ num < 4096 := by
  unfold findLog at h
  by_cases hc : 2 * bpv < 8186
  · rw [if_pos hc] at h
    have := logLoop_ok bpv 12 (2 * bpv) 1 2 (Nat.mul_comm _ _) rfl hc (by omega) (by omega)
    simp only [Option.some.injEq] at h
    rw [h] at this
    exact this
  · rw [if_neg hc] at h; exact absurd h (by simp)

/-- The values in groups of `num`; the last one may hold fewer. -/
def groups (num : Nat) : Nat → List V → List (List V)
  | 0, vals => [vals]
  | fuel + 1, vals => if num ≤ vals.length then vals.take num :: groups num fuel (vals.drop num) else [vals]

theorem groups_ne (num fuel : Nat) (vals : List V) : groups num fuel vals ≠ [] := by
  cases fuel with
  | zero => simp [groups]
  | succ fuel => rw [groups]; split <;> simp

theorem groups_flatten (num fuel : Nat) (vals : List V) : (groups num fuel vals).flatten = vals := by
  induction fuel generalizing vals with
  | zero => simp [groups]
  | succ fuel ih =>
    rw [groups]
    by_cases h : num ≤ vals.length
    · rw [if_pos h, List.flatten_cons, ih, List.take_append_drop]
    · rw [if_neg h]; simp

/-- Chunks that describe groups of values. -/
def CRel : List Chunk → List (List (List Nat)) → Prop
  | [], [] => True
  | [c], [p] => c.logNumValues = 0 ∧ c.numBytes = p.flatten.length ∧ c.numBytes < 65536
  | c :: c' :: cs, p :: p' :: ps => 0 < c.logNumValues ∧ c.logNumValues < 16 ∧ p.length = 2 ^ c.logNumValues ∧
      c.numBytes = p.flatten.length ∧ c.numBytes < 65536 ∧ CRel (c' :: cs) (p' :: ps)
  | _, _ => False

theorem flatten_fixed (bpv : Nat) (vals : List (List Nat)) (h : ∀ v ∈ vals, v.length = bpv) :
    vals.flatten.length = bpv * vals.length := by
  induction vals with
  | nil => simp
  | cons v vals ih =>
    rw [List.flatten_cons, List.length_append, h v List.mem_cons_self, ih fun x hx => h x (List.mem_cons_of_mem _ hx),
      List.length_cons, Nat.mul_succ]
    omega

theorem CRel_cons (c : Chunk) (cs : List Chunk) (p : List (List Nat)) (ps : List (List (List Nat)))
    (h : CRel cs ps) (hne : ps ≠ []) (h1 : 0 < c.logNumValues) (h2 : c.logNumValues < 16)
    (h3 : p.length = 2 ^ c.logNumValues) (h4 : c.numBytes = p.flatten.length) (h5 : c.numBytes < 65536) :
    CRel (c :: cs) (p :: ps) := by
  cases ps with
  | nil => exact absurd rfl hne
  | cons p' ps =>
    cases cs with
    | nil => exact absurd h (by simp [CRel])
    | cons c' cs => exact ⟨h1, h2, h3, h4, h5, h⟩

theorem valueChunks_ok (bpv log num : Nat) (hn : num = 2 ^ log) (hl0 : 0 < log) (hl : log < 16)
    (hb : bpv * num < 65536) (fuel : Nat) :
    ∀ (vals : List (List Nat)) (cs : List Chunk), (∀ v ∈ vals, v.length = bpv) →
      valueChunks log num (bpv * num) fuel vals.length vals.flatten.length = some cs →
      CRel cs (groups num fuel vals) := by
  induction fuel with
  | zero => intro vals cs _ h; simp [valueChunks] at h
  | succ fuel ih =>
    intro vals cs hv h
    rw [valueChunks] at h
    rw [groups]
    by_cases hc : num ≤ vals.length
    · rw [if_pos hc] at h ⊢
      have hvd : ∀ v ∈ vals.drop num, v.length = bpv := fun v hx => hv v (List.mem_of_mem_drop hx)
      have hvt : ∀ v ∈ vals.take num, v.length = bpv := fun v hx => hv v (List.mem_of_mem_take hx)
      have e1 : vals.length - num = (vals.drop num).length := by rw [List.length_drop]
      have e3 : (vals.take num).flatten.length = bpv * num := by
        rw [flatten_fixed bpv _ hvt, List.length_take, Nat.min_eq_left hc]
      have e2 : vals.flatten.length - bpv * num = (vals.drop num).flatten.length := by
        have : vals.flatten.length = (vals.take num).flatten.length + (vals.drop num).flatten.length := by
          rw [← List.length_append, ← List.flatten_append, List.take_append_drop]
        omega
      rw [e1, e2] at h
      cases hr : valueChunks log num (bpv * num) fuel (vals.drop num).length (vals.drop num).flatten.length with
      | none => rw [hr] at h; simp at h
      | some cs' =>
        rw [hr] at h
        simp only [Option.map_some, Option.some.injEq] at h
        rw [← h]
        refine CRel_cons _ _ _ _ (ih _ cs' hvd hr) (groups_ne _ _ _) hl0 hl ?_ e3.symm hb
        rw [List.length_take, Nat.min_eq_left hc, hn]
    · rw [if_neg hc] at h ⊢
      by_cases hb2 : vals.flatten.length < 65536
      · rw [if_pos hb2] at h
        simp only [Option.some.injEq] at h
        rw [← h]
        exact ⟨rfl, rfl, hb2⟩
      · rw [if_neg hb2] at h; exact absurd h (by simp)

theorem CRel_length (cs : List Chunk) (ps : List (List (List Nat))) (h : CRel cs ps) : cs.length = ps.length := by
  induction cs generalizing ps with
  | nil =>
    cases ps with
    | nil => rfl
    | cons p ps => exact absurd h (by simp [CRel])
  | cons c cs ih =>
    cases ps with
    | nil => exact absurd h (by cases cs <;> simp [CRel])
    | cons p ps =>
      cases cs with
      | nil =>
        cases ps with
        | nil => rfl
        | cons p' ps => exact absurd h (by simp [CRel])
      | cons c' cs =>
        cases ps with
        | nil => exact absurd h (by simp [CRel])
        | cons p' ps =>
          have := ih (p' :: ps) h.2.2.2.2.2
          simp only [List.length_cons] at this ⊢
          omega

theorem CRel_get (cs : List Chunk) (ps : List (List (List Nat))) (h : CRel cs ps) (k : Nat) (hk : k < cs.length) :
    (cs[k]).numBytes = (ps.getD k []).flatten.length ∧ (cs[k]).numBytes < 65536 ∧
      if k + 1 = cs.length then (cs[k]).logNumValues = 0
      else 0 < (cs[k]).logNumValues ∧ (cs[k]).logNumValues < 16 ∧ (ps.getD k []).length = 2 ^ (cs[k]).logNumValues := by
  induction cs generalizing ps k with
  | nil => simp at hk
  | cons c cs ih =>
    cases ps with
    | nil => exact absurd h (by cases cs <;> simp [CRel])
    | cons p ps =>
      cases cs with
      | nil =>
        cases ps with
        | cons p' ps => exact absurd h (by simp [CRel])
        | nil =>
          have : k = 0 := by simpa using hk
          subst this
          exact ⟨h.2.1, h.2.2, h.1⟩
      | cons c' cs =>
        cases ps with
        | nil => exact absurd h (by simp [CRel])
        | cons p' ps =>
          obtain ⟨a1, a2, a3, a4, a5, a6⟩ := h
          cases k with
          | zero => exact ⟨a4, a5, a1, a2, a3⟩
          | succ k =>
            have := ih (p' :: ps) a6 k (by simpa using hk)
            simpa using this

theorem cutValues_ok (bpv : Nat) (vals : List (List Nat)) (h : ∀ v ∈ vals, v.length = bpv) :
    cutValues bpv vals.length vals.flatten = vals := by
  induction vals with
  | nil => rfl
  | cons v vals ih =>
    have hv := h v List.mem_cons_self
    rw [List.length_cons, cutValues, List.flatten_cons, List.take_left' hv, List.drop_left' hv,
      ih fun x hx => h x (List.mem_cons_of_mem _ hx)]

theorem valueCodec_ok (bpv : Nat) : CodecOk (valueCodec bpv) (fun v => v.length = bpv) := by
  intro vals c hP h
  simp only [valueCodec, valueCompress] at h
  cases hf : findLog bpv with
  | none => rw [hf] at h; simp at h
  | some q =>
    obtain ⟨log, num⟩ := q
    rw [hf] at h
    obtain ⟨f1, f2, f3, f4⟩ := findLog_ok bpv log num hf
    have hl : log < 16 := by
      apply Classical.byContradiction
      intro hc
      have := Nat.pow_le_pow_right (n := 2) (by omega) (show 16 ≤ log by omega)
      omega
    simp only at h
    by_cases hb : bpv * num < 65536
    · rw [if_pos hb] at h
      cases hr : valueChunks log num (bpv * num) (vals.length + 1) vals.length vals.flatten.length with
      | none => rw [hr] at h; simp at h
      | some cs =>
        rw [hr] at h
        simp only [Option.map_some, Option.some.injEq] at h
        have hrel := valueChunks_ok bpv log num f1 f2 hl hb _ vals cs hP hr
        generalize hG : groups num (vals.length + 1) vals = parts at hrel
        have hfl : parts.flatten = vals := by rw [← hG, groups_flatten]
        have hlen := CRel_length _ _ hrel
        refine ⟨parts, parts.map List.flatten, ?_⟩
        have hgd : ∀ k, k < parts.length → (parts.map List.flatten).getD k [] = (parts.getD k []).flatten :=
          fun k hk => getD_map _ _ _ _ _ hk
        rw [← h]
        constructor
        · exact hfl
        · rw [← hG]; exact groups_ne _ _ _
        · rw [← List.flatten_flatten, hfl]
        · exact hlen
        · rw [List.length_map]
        · intro k hk
          have := CRel_get cs parts hrel k hk
          rw [hgd k (by rw [← hlen]; exact hk)]
          exact ⟨this.1, this.2.1⟩
        · intro k hk
          exact (CRel_get cs parts hrel k hk).2.2
        · intro k hk
          have hin : ∀ v ∈ parts.getD k [], v.length = bpv := by
            intro v hv
            apply hP
            rw [← hfl]
            refine List.mem_flatten.mpr ⟨parts.getD k [], ?_, hv⟩
            simp [List.getD, hk]
          rw [hgd k hk]
          simp only [valueCodec, valueDecompress]
          rw [if_pos (by rw [flatten_fixed bpv _ hin, Nat.mul_comm]), cutValues_ok bpv _ hin]
    · rw [if_neg hb] at h; exact absurd h (by simp)

/-! ### When writing succeeds -/

theorem valueChunks_total (bpv log num : Nat) (hn : 0 < num) (hb : bpv * num < 65536) (fuel : Nat) :
    ∀ (n : Nat), n < fuel → (valueChunks log num (bpv * num) fuel n (bpv * n)).isSome = true := by
  induction fuel with
  | zero => intro n h; omega
  | succ fuel ih =>
    intro n h
    rw [valueChunks]
    by_cases hc : num ≤ n
    · rw [if_pos hc]
      have e : bpv * n - bpv * num = bpv * (n - num) := by rw [Nat.mul_sub]
      rw [e]
      have := ih (n - num) (by omega)
      simpa using this
    · rw [if_neg hc]
      have : bpv * n ≤ bpv * num := Nat.mul_le_mul_left _ (by omega)
      rw [if_pos (by omega)]
      rfl

theorem valueCompress_total (bpv : Nat) (hb : 2 * bpv < 8186) (vals : List (List Nat)) (h : ∀ v ∈ vals, v.length = bpv) :
    (valueCompress bpv vals).isSome = true := by
  unfold valueCompress
  have hf : ∃ q, findLog bpv = some q := by unfold findLog; rw [if_pos hb]; exact ⟨_, rfl⟩
  obtain ⟨⟨log, num⟩, hf⟩ := hf
  obtain ⟨f1, f2, f3, f4⟩ := findLog_ok bpv log num hf
  rw [hf]
  simp only
  rw [if_pos (by omega), flatten_fixed bpv vals h]
  have := valueChunks_total bpv log num (by rw [f1]; exact Nat.two_pow_pos _) (by omega) (vals.length + 1) vals.length (by omega)
  simpa using this

theorem fixPrev_total (m : Nat) (s : List (Slot V)) (hs : s ≠ []) (idx : List (Nat × Nat)) :
    ∃ idx0, fixPrev m (s.map Slot.rep) idx = some idx0 := by
  cases idx with
  | nil => exact ⟨[], rfl⟩
  | cons e older =>
    cases s with
    | nil => exact absurd rfl hs
    | cons t s => exact ⟨_, rfl⟩

theorem levelsLoop_total (r : Rows V) (hok : ∀ t ∈ r.rows.flatten, SlotOk r t) (f : Slot V → Nat) (total m : Nat)
    (hfm : 0 < m → f = Slot.rep) (chunks : List Chunk) :
    ∀ (ns : List Nat) (cur counter : Nat) (idx : List (Nat × Nat)),
      LogsOk chunks ns → ns.sum = nv (r.rows.flatten.drop cur) → cur ≤ r.rows.flatten.length →
      (0 < m → ∀ s ∈ cutAt ns (r.rows.flatten.drop cur), s ≠ []) →
      ∃ q, levelsLoop r.repDefs (r.rows.flatten.map f) total m chunks cur counter idx = some q := by
  induction chunks with
  | nil => intro ns cur counter idx _ _ _ _; exact ⟨_, rfl⟩
  | cons c cs ih =>
    intro ns cur counter idx hl hs hc hne
    cases ns with
    | nil => exact absurd hl (by cases cs <;> simp [LogsOk])
    | cons n ns =>
      cases cs with
      | nil =>
        cases ns with
        | cons n' ns => exact absurd hl (by simp [LogsOk])
        | nil =>
          rw [levelsLoop]
          simp only [if_true, levelsLoop]
          by_cases hm : 0 < m
          · have hf := hfm hm
            subst hf
            obtain ⟨idx0, h0⟩ := fixPrev_total m (r.rows.flatten.drop cur) (hne hm _ (by simp [cutAt])) idx
            simp only [gt_iff_lt, hm, if_true]
            rw [← List.map_drop, h0]
            exact ⟨_, rfl⟩
          · simp only [gt_iff_lt, hm, if_false]
            exact ⟨_, rfl⟩
      | cons c' cs =>
        cases ns with
        | nil => exact absurd hl (by simp [LogsOk])
        | cons n' ns =>
          obtain ⟨l1, l2, l3⟩ := hl
          rw [List.sum_cons] at hs
          have hnum : c.numValues counter total = n := by
            unfold Chunk.numValues; rw [if_neg (by omega), l2]
          have hn : n ≤ nv (r.rows.flatten.drop cur) := by omega
          have hpl := pos_le n (r.rows.flatten.drop cur)
          rw [List.length_drop] at hpl
          have hdd : r.rows.flatten.drop (cur + pos n (r.rows.flatten.drop cur)) =
              (r.rows.flatten.drop cur).drop (pos n (r.rows.flatten.drop cur)) := by rw [List.drop_drop]
          have hrec := fun idx' => ih (n' :: ns) (cur + pos n (r.rows.flatten.drop cur)) (counter + n) idx' l3
            (by rw [hdd, nv_drop_pos _ _ hn]; omega) (by omega) (by
              intro hm s hs
              rw [hdd] at hs
              exact hne hm s (by rw [cutAt]; exact List.mem_cons_of_mem _ hs))
          rw [levelsLoop]
          simp only [hnum, reduceCtorEq, if_false, sliceNext_ok r hok f cur n hc hn]
          by_cases hm : 0 < m
          · have hf := hfm hm
            subst hf
            obtain ⟨idx0, h0⟩ := fixPrev_total m ((r.rows.flatten.drop cur).take (pos n (r.rows.flatten.drop cur)))
              (hne hm _ (by rw [cutAt]; exact List.mem_cons_self)) idx
            simp only [gt_iff_lt, hm, if_true]
            rw [h0]
            simp only [Option.map_some]
            obtain ⟨⟨o, i⟩, hq⟩ := hrec _
            rw [hq]
            exact ⟨_, rfl⟩
          · simp only [gt_iff_lt, hm, if_false]
            obtain ⟨⟨o, i⟩, hq⟩ := hrec idx
            rw [hq]
            exact ⟨_, rfl⟩

theorem padded_length (l : List Nat) : (padded 0 l).length % 8 = 0 ∧ (padded 0 l).length ≤ l.length + 7 := by
  unfold padded pad8
  rw [List.length_append, List.length_replicate, Nat.zero_add]
  constructor <;> omega

theorem outOf_length (rep d b : List Nat) : (outOf rep d b).length % 8 = 0 ∧ 0 < (outOf rep d b).length ∧
    (outOf rep d b).length ≤ 20 + rep.length + d.length + b.length := by
  unfold outOf chunkBytes
  have h1 := padded_length (le16 rep.length ++ le16 d.length ++ le16 b.length ++ rep ++ d)
  have hh : (le16 rep.length ++ le16 d.length ++ le16 b.length ++ rep ++ d).length = 6 + rep.length + d.length := by
    simp [le16]; omega
  have h3 : 6 + rep.length + d.length ≤ (padded 0 (le16 rep.length ++ le16 d.length ++ le16 b.length ++ rep ++ d)).length := by
    unfold padded; rw [List.length_append, hh]; omega
  generalize hX : padded 0 (le16 rep.length ++ le16 d.length ++ le16 b.length ++ rep ++ d) = X at *
  rw [hh] at h1
  have h2 := padded_length (X ++ b)
  have h4 : (X ++ b).length ≤ (padded 0 (X ++ b)).length := by
    show (X ++ b).length ≤ ((X ++ b) ++ List.replicate (pad8 (0 + (X ++ b).length)) 0).length
    generalize X ++ b = Y
    rw [List.length_append]; omega
  rw [List.length_append] at h2 h4
  refine ⟨h2.1, by omega, by omega⟩

theorem serialize_total (cs : List Chunk) : ∀ (reps ds bs : List (List Nat)) (at_ : Nat),
    reps.length = cs.length → ds.length = cs.length → bs.length = cs.length → at_ % 8 = 0 →
    (∀ k (h : k < cs.length), cs[k].numBytes = (bs.getD k []).length ∧
      20 + (reps.getD k []).length + (ds.getD k []).length + (bs.getD k []).length ≤ 16384) →
    ∃ q, serialize cs reps ds at_ bs.flatten = some q := by
  induction cs with
  | nil => intro reps ds bs at_ _ _ _ _ _; exact ⟨_, rfl⟩
  | cons c cs ih =>
    intro reps ds bs at_ h1 h2 h3 h4 h5
    cases reps with
    | nil => simp at h1
    | cons rep reps =>
    cases ds with
    | nil => simp at h2
    | cons d ds =>
    cases bs with
    | nil => simp at h3
    | cons b bs =>
      have h50 := h5 0 (by simp)
      have hb : c.numBytes = b.length := h50.1
      have hsz : 20 + rep.length + d.length + b.length ≤ 16384 := h50.2
      have htake : (b :: bs).flatten.take b.length = b := by
        rw [List.flatten_cons, List.take_left' rfl]
      have hdrop : (b :: bs).flatten.drop b.length = bs.flatten := by
        rw [List.flatten_cons, List.drop_left' rfl]
      obtain ⟨o1, o2, o3⟩ := outOf_length rep d b
      rw [serialize]
      simp only [hb, htake, hdrop, chunkBytes_eq at_ rep d b h4]
      rw [if_pos ⟨by omega, by omega, by rw [List.flatten_cons, List.length_append]; omega⟩,
        if_pos ⟨by omega, o2, o1⟩]
      obtain ⟨⟨x, y⟩, hq⟩ := ih reps ds bs (at_ + (outOf rep d b).length) (by simpa using h1) (by simpa using h2)
        (by simpa using h3) (by omega) (fun k hk => by
          have := h5 (k + 1) (by simpa using hk)
          simpa using this)
      rw [hq]
      exact ⟨_, rfl⟩

theorem lvBytes_length (b : Bool) (f : Slot V → Nat) (s : List (Slot V)) : (lvBytes b f s).length ≤ 2 * s.length := by
  unfold lvBytes
  split
  · rw [packLevels_length, List.length_map]; omega
  · simp

theorem compressLevels_total (r : Rows V) (hok : ∀ t ∈ r.rows.flatten, SlotOk r t) (b : Bool) (f : Slot V → Nat)
    (total m : Nat) (hfm : 0 < m → f = Slot.rep) (chunks : List Chunk) (ns : List Nat) (hl : LogsOk chunks ns)
    (hs : ns.sum = nv r.rows.flatten) (hne : 0 < m → ∀ s ∈ cutAt ns r.rows.flatten, s ≠ []) :
    ∃ q, compressLevels r.repDefs (opt b f r.rows.flatten) total chunks m = some q := by
  cases b with
  | false => exact ⟨_, rfl⟩
  | true =>
    simp only [opt, if_true, compressLevels]
    obtain ⟨⟨o, i⟩, hq⟩ := levelsLoop_total r hok f total m hfm chunks ns 0 0 [] hl (by simpa using hs) (by omega)
      (by simpa using hne)
    rw [hq]
    exact ⟨_, rfl⟩

/-- Writing succeeds if the parts are small, and not empty if there are lists. -/
theorem write_total (codec : Codec V) (r : Rows V) (hok : ∀ t ∈ r.rows.flatten, SlotOk r t)
    (hvis : ∀ t ∈ r.rows.flatten, t.val.isSome = true) (c : Compressed)
    (hcomp : codec.compress (valsOf r.rows.flatten) = some c) (parts : List (List V)) (bytes : List (List Nat))
    (hcut : Cut codec c (valsOf r.rows.flatten) parts bytes)
    (hsmall : ∀ k, k < parts.length → 20 + 4 * (parts.getD k []).length + (bytes.getD k []).length ≤ 16384)
    (hne : listDepth r.layers = 0 ∨ ∀ q ∈ parts, q ≠ []) : ∃ p, write codec r = some p := by
  have hlen : c.chunks.length = (parts.map List.length).length := by rw [List.length_map]; exact hcut.chunks
  have hlogs : LogsOk c.chunks (parts.map List.length) := by
    refine logsOk_of _ _ hlen ?_
    intro k hk hk1
    have := hcut.logs k hk
    rw [if_neg (by omega)] at this
    have hkp : k < parts.length := by rw [← hcut.chunks]; exact hk
    refine ⟨this.1, ?_⟩
    rw [getD_map List.length parts k [] 0 hkp, this.2.2]
  have hsum : (parts.map List.length).sum = nv r.rows.flatten := by
    unfold nv; rw [← hcut.values, List.length_flatten]
  have hpne : parts.map List.length ≠ [] := by simpa using hcut.nonempty
  have hSf := cutAt_flatten (parts.map List.length) r.rows.flatten hpne
  have hSl := cutAt_length (parts.map List.length) r.rows.flatten
  have hSv := cutAt_vals parts r.rows.flatten hcut.values hcut.nonempty
  have hreps : r.repDefs.rep = opt (decide (listDepth r.layers ≠ 0)) Slot.rep r.rows.flatten := repsOf_eq r _
  have hdefs : r.repDefs.defs = opt r.withDefs Slot.dfn r.rows.flatten := rfl
  have hlay : r.repDefs.layers = r.layers := rfl
  have hmemS : ∀ s ∈ cutAt (parts.map List.length) r.rows.flatten, valsOf s ∈ parts := by
    intro s hs
    have := List.mem_map_of_mem (f := valsOf) hs
    rwa [hSv] at this
  obtain ⟨⟨reps, idx⟩, hcr⟩ := compressLevels_total r hok (decide (listDepth r.layers ≠ 0)) Slot.rep
    (valsOf r.rows.flatten).length (listDepth r.layers) (fun _ => rfl) c.chunks _ hlogs hsum (by
      intro hm s hs hc0
      rcases hne with h | h
      · omega
      · exact h _ (hmemS s hs) (by rw [hc0]; rfl))
  obtain ⟨⟨ds, idx2⟩, hcd⟩ := compressLevels_total r hok r.withDefs Slot.dfn
    (valsOf r.rows.flatten).length 0 (fun h => absurd h (by omega)) c.chunks _ hlogs hsum (fun h => absurd h (by omega))
  have hro := compressLevels_out r hok _ Slot.rep _ _ c.chunks _ hlogs hlen hsum reps idx hcr
  have hdo := compressLevels_out r hok _ Slot.dfn _ _ c.chunks _ hlogs hlen hsum ds idx2 hcd
  generalize hSdef : cutAt (parts.map List.length) r.rows.flatten = S at *
  have hSn : S.length = c.chunks.length := by rw [hSl, hlen]
  have hrl : reps.length = c.chunks.length := by rw [hro, List.length_map, hSn]
  have hdl : ds.length = c.chunks.length := by rw [hdo, List.length_map, hSn]
  have hbl : bytes.length = c.chunks.length := by rw [hcut.lengths, hcut.chunks]
  have hser : ∃ q, serialize c.chunks reps ds 0 bytes.flatten = some q := by
    refine serialize_total c.chunks reps ds bytes 0 hrl hdl hbl rfl ?_
    intro k hk
    have hkS : k < S.length := by omega
    have hkp : k < parts.length := by rw [← hcut.chunks]; exact hk
    refine ⟨(hcut.sizes k hk).1, ?_⟩
    have hrk : reps.getD k [] = lvBytes (decide (listDepth r.layers ≠ 0)) Slot.rep (slotsAt S k) := by
      rw [hro, getD_map _ S k [] [] hkS]; rfl
    have hdk : ds.getD k [] = lvBytes r.withDefs Slot.dfn (slotsAt S k) := by
      rw [hdo, getD_map _ S k [] [] hkS]; rfl
    have hpart : valsOf (slotsAt S k) = parts.getD k [] := by
      rw [← hSv, getD_map valsOf S k [] [] hkS]; rfl
    have hsl : (slotsAt S k).length = (parts.getD k []).length := by
      rw [← hpart]
      refine (nv_visible _ ?_).symm
      rw [ninv, List.countP_eq_zero]
      intro x hx hcx
      have hxm := slotsAt_mem S k x hx
      rw [hSf] at hxm
      have := hvis x hxm
      cases hq : x.val <;> simp [hq] at hcx this
    have l1 := lvBytes_length (decide (listDepth r.layers ≠ 0)) Slot.rep (slotsAt S k)
    have l2 := lvBytes_length r.withDefs Slot.dfn (slotsAt S k)
    have := hsmall k hkp
    rw [hrk, hdk]
    omega
  obtain ⟨⟨out, words⟩, hser⟩ := hser
  unfold write writePage
  rw [hcomp]
  simp only
  rw [hlay, maxRepOf_eq, hreps, hdefs, hcr]
  simp only
  rw [hcd]
  simp only
  rw [← hcut.data, hser]
  exact ⟨_, rfl⟩

theorem groups_length (num fuel : Nat) (vals : List V) (hn : 0 < num) (h : vals.length < fuel) :
    ∀ q ∈ groups num fuel vals, q.length ≤ num := by
  induction fuel generalizing vals with
  | zero => omega
  | succ fuel ih =>
    rw [groups]
    by_cases hc : num ≤ vals.length
    · rw [if_pos hc]
      intro q hq
      rcases List.mem_cons.mp hq with h1 | h1
      · rw [h1, List.length_take]; omega
      · exact ih _ (by rw [List.length_drop]; omega) q h1
    · rw [if_neg hc]
      intro q hq
      rw [List.mem_singleton.mp hq]
      omega

/-- Writing fixed width values succeeds unless a chunk of a list column has no values, or there are null or
empty lists. -/
theorem write_values_total (bpv : Nat) (hb : 2 * bpv < 8186) (r : Rows (List Nat))
    (hok : ∀ t ∈ r.rows.flatten, SlotOk r t) (hvis : ∀ t ∈ r.rows.flatten, t.val.isSome = true)
    (hv : ∀ v ∈ valsOf r.rows.flatten, v.length = bpv)
    (hne : listDepth r.layers = 0 ∨ ∀ c, valueCompress bpv (valsOf r.rows.flatten) = some c →
      ∀ x ∈ c.chunks, x.numBytes ≠ 0) : ∃ p, write (valueCodec bpv) r = some p := by
  have htot := valueCompress_total bpv hb _ hv
  obtain ⟨c, hcomp⟩ := Option.isSome_iff_exists.mp htot
  generalize hvals : valsOf r.rows.flatten = vals at *
  unfold valueCompress at hcomp
  cases hf : findLog bpv with
  | none => rw [hf] at hcomp; simp at hcomp
  | some q =>
    obtain ⟨log, num⟩ := q
    obtain ⟨f1, f2, f3, f4⟩ := findLog_ok bpv log num hf
    have hnum : 0 < num := by rw [f1]; exact Nat.two_pow_pos _
    have hcomp' : valueCompress bpv vals = some c := by unfold valueCompress; exact hcomp
    have hl : log < 12 := by
      apply Classical.byContradiction
      intro hc
      have := Nat.pow_le_pow_right (n := 2) (by omega) (show 12 ≤ log by omega)
      omega
    rw [hf] at hcomp
    simp only at hcomp
    rw [if_pos (by omega)] at hcomp
    cases hr : valueChunks log num (bpv * num) (vals.length + 1) vals.length vals.flatten.length with
    | none => rw [hr] at hcomp; simp at hcomp
    | some cs =>
      rw [hr] at hcomp
      simp only [Option.map_some, Option.some.injEq] at hcomp
      have hrel := valueChunks_ok bpv log num f1 f2 (by omega) (by omega) _ vals cs hv hr
      have hgl := groups_length num (vals.length + 1) vals hnum (by omega)
      generalize hG : groups num (vals.length + 1) vals = parts at hrel hgl
      have hfl : parts.flatten = vals := by rw [← hG, groups_flatten]
      have hlen := CRel_length _ _ hrel
      have hgd : ∀ k, k < parts.length → (parts.map List.flatten).getD k [] = (parts.getD k []).flatten :=
        fun k hk => getD_map _ _ _ _ _ hk
      have hmem : ∀ k, k < parts.length → parts.getD k [] ∈ parts := by
        intro k hk; simp [List.getD, hk]
      have hin : ∀ q ∈ parts, ∀ v ∈ q, v.length = bpv := by
        intro q hq v hvq
        apply hv
        rw [← hfl]
        exact List.mem_flatten.mpr ⟨q, hq, hvq⟩
      have hcut : Cut (valueCodec bpv) c vals parts (parts.map List.flatten) := by
        rw [← hcomp]
        constructor
        · exact hfl
        · rw [← hG]; exact groups_ne _ _ _
        · rw [← List.flatten_flatten, hfl]
        · exact hlen
        · rw [List.length_map]
        · intro k hk
          have := CRel_get cs parts hrel k hk
          rw [hgd k (by rw [← hlen]; exact hk)]
          exact ⟨this.1, this.2.1⟩
        · intro k hk
          exact (CRel_get cs parts hrel k hk).2.2
        · intro k hk
          have hi := hin _ (hmem k hk)
          rw [hgd k hk]
          simp only [valueCodec, valueDecompress]
          rw [if_pos (by rw [flatten_fixed bpv _ hi, Nat.mul_comm]), cutValues_ok bpv _ hi]
      refine write_total (valueCodec bpv) r hok hvis c (by rw [hvals]; exact hcomp') parts _ (by rw [hvals]; exact hcut) ?_ ?_
      · intro k hk
        rw [hgd k hk, flatten_fixed bpv _ (hin _ (hmem k hk))]
        have h1 := hgl _ (hmem k hk)
        have h2 : bpv * (parts.getD k []).length ≤ bpv * num := Nat.mul_le_mul_left _ h1
        by_cases h11 : log = 11
        · rw [h11] at f1
          have h2k : num = 2048 := f1
          rw [h2k] at f3 h2 h1
          omega
        · have := Nat.pow_le_pow_right (n := 2) (by omega) (show log ≤ 10 by omega)
          omega
      · rcases hne with h | h
        · exact Or.inl h
        · right
          intro q hq hc0
          obtain ⟨k, hk, hkq⟩ := List.getElem_of_mem hq
          have hkc : k < cs.length := by rw [hlen]; exact hk
          have h1 := (CRel_get cs parts hrel k hkc).1
          have h2 : parts.getD k [] = [] := by
            rw [← hc0, ← hkq]; simp [List.getD, hk]
          rw [h2] at h1
          have h3 := h c hcomp' (cs[k]) (by rw [← hcomp]; exact List.getElem_mem hkc)
          exact h3 h1

/-- Columns without lists: every slot has a value, and no row fills a chunk. -/
theorem flat_facts (r : Rows V) (hr : RowsOk r) (hflat : listDepth r.layers = 0) :
    FlatLists r ∧ (∀ t ∈ r.rows.flatten, t.val.isSome = true) ∧
      ∀ (chunks : List Chunk) (x k : Nat), ¬ Fills chunks r.rows x k := by
  have hsome : ∀ row ∈ r.rows, ∀ s ∈ row, s.val.isSome = true := by
    intro row hrow s hs
    have := hr.rows row hrow
    cases row with
    | nil => exact absurd hs (by simp)
    | cons t rest => exact (this.2.2 s hs).1.mpr (Or.inl hflat)
  refine ⟨?_, ?_, ?_⟩
  · intro row hrow s hs hn
    have := hsome row hrow s hs
    rw [hn] at this; exact absurd this (by simp)
  · intro t ht
    obtain ⟨row, h1, h2⟩ := List.mem_flatten.mp ht
    exact hsome row h1 t h2
  intro chunks x k hfill
  obtain ⟨f1, f2, f3⟩ := hfill
  -- a row has one value, and a chunk that is not the last at least one
  have h1 : valuesBefore chunks (k + 1) = valuesBefore chunks k + 2 ^ (chunks[k]'(by omega)).logNumValues := by
    unfold valuesBefore
    rw [List.take_add_one, List.map_append, List.sum_append, List.getElem?_eq_getElem (by omega)]
    simp
  have h2 := Nat.two_pow_pos (chunks[k]'(by omega)).logNumValues
  have h3 : valuesBeforeRow r.rows (x + 1) ≤ valuesBeforeRow r.rows x + 1 := by
    unfold valuesBeforeRow
    rw [List.take_add_one, List.flatten_append, valsOf_append, List.length_append]
    cases hg : r.rows[x]? with
    | none => simp [valsOf]
    | some row =>
      have hrow := hr.rows row (List.mem_of_getElem? hg)
      cases row with
      | nil => simp [valsOf]
      | cons t rest =>
        have : rest = [] := by
          cases rest with
          | nil => rfl
          | cons u us =>
            have := hrow.2.1 u List.mem_cons_self
            omega
        subst this
        have := List.length_filterMap_le Slot.val [t]
        simp only [Option.toList_some, List.flatten_cons, List.flatten_nil, List.append_nil]
        unfold valsOf at *
        simp only [List.length_cons, List.length_nil] at this
        omega
  omega

end Verif.Mini
