import Verif.Session.Lemmas
import Verif.Txn.PropsIds
/-!
# C97: reading through a session gives what a new session would read

A session is shared by all the datasets opened with it and by all their versions.  The statements range
over every state a dataset and a session can reach: any writers in any order, any loads of any version in
any order, computations that are interrupted by other steps, evictions at any moment.
-/
namespace Verif.Session
open Verif.Txn

/-- What is read of version `v` with these caches is what a session with empty caches reads. -/
structure Faithful (c : Cache) (v : Nat) (e : Entry) : Prop where
  rowIds : ∀ f ∈ e.m.frags, readSeq c f = f.rowIds
  deletions : ∀ f ∈ e.m.frags, readDel c f = f.del.map (·.offs)
  index : readIndex c v e.m = readIndex Cache.empty v e.m
  mask : readMask c v e.m = readMask Cache.empty v e.m
  indices : readIxs c v e = some e.ix

/-- Full claim. -/
def C97_statement : Prop :=
  ∀ st, SReach true st → ∀ v e, st.sys.hist.look v = some e → v ∉ st.sys.gone → Faithful st.cache v e

/-- Whatever the history is: the indices of a version are those stored with it, deletions are those of
the file the manifest names (if no two deletion files got the same random name), and the transaction of a
version is the one that was committed or the one that its file gives back.  A dataset that is removed and
made again is excluded. -/
theorem C97_by_version_partial {st : St} (h : SReach false st) {v : Nat} {e : Entry}
    (he : st.sys.hist.look v = some e) :
    readIxs st.cache v e = some e.ix ∧
      (DelCoh st.sys.hist → ∀ f ∈ e.m.frags, readDel st.cache f = f.del.map (·.offs)) ∧
      (v ∉ st.sys.gone → readTxn st.cache v e = some e.job.tx.op ∨ readTxn st.cache v e = some e.job.tx.op.stored) := by
  obtain ⟨hin, hb⟩ := base_inv h
  have hb := hb _ hin
  refine ⟨?_, fun hd f hf => readDel_eq hb hd he hf, fun hg => ?_⟩
  · unfold readIxs
    cases hx : st.cache.ixs v with
    | none => rfl
    | some x =>
      obtain ⟨e', h1, h2⟩ := hb.ixs v x hx
      rw [he] at h1; cases h1
      rw [h2]; rfl
  · unfold readTxn
    cases hx : st.cache.txns v with
    | none => exact .inr rfl
    | some o =>
      rcases hb.txns v o hx with h1 | ⟨e', h1, h2⟩
      · exact absurd h1 hg
      · rw [he] at h1; cases h1
        exact h2.imp (fun h3 => by rw [h3]; rfl) (fun h3 => by rw [h3]; rfl)

/-- Histories without restores and overwrites, in which some fragment id other than 0 had been used
before every version without fragments, use a fragment id for one sequence of row ids. -/
theorem seqCoh_of_linear {s : Sys} (hr : Reach s) (hc : s.hist.Clean)
    (hlin : ∀ u e, 1 < u → s.hist.look u = some e →
      (∀ w, e.job.tx.op ≠ .restore w) ∧ ∀ x y z, e.job.tx.op ≠ .overwrite x y z)
    (hne : ∀ u e, s.hist.look u = some e → e.m.maxFrag ≠ 0 ∨ e.m.frags ≠ []) : SeqCoh s.hist := by
  have key : ∀ a b ea eb f g, a ≤ b → s.hist.look a = some ea → s.hist.look b = some eb → f ∈ ea.m.frags →
      g ∈ eb.m.frags → f.id = g.id → g.rowIds = f.rowIds := by
    intro a b ea eb f g hab ha hb hf hg hid
    exact (C15_same_fragment_partial hr hc ha hb hab
      (fun u e h1 _ h3 => hlin u e (by have := (look_le ha).1; omega) h3)
      (.inr (fun u e _ _ h3 => hne u e h3)) hf hg hid.symm).1.2.1
  intro a b ea eb f g l l' ha hb hf hg hid hl hl'
  rcases Nat.le_total a b with hab | hab
  · have := key a b ea eb f g hab ha hb hf hg hid
    rw [hl, hl'] at this
    exact (Option.some.inj this).symm
  · have := key b a eb ea g f hab hb ha hg hf hid.symm
    rw [hl, hl'] at this
    exact Option.some.inj this

theorem faithful_of_coherent {st : St} (h : SReach false st) (hs : SeqCoh st.sys.hist) (hd : DelCoh st.sys.hist)
    {v : Nat} {e : Entry} (he : st.sys.hist.look v = some e) : Faithful st.cache v e := by
  obtain ⟨hin, hb⟩ := base_inv h
  have hb := hb _ hin
  have hder := derived_inv h hs hd _ hin
  refine ⟨fun f hf => readSeq_eq hb hs he hf, fun f hf => readDel_eq hb hd he hf, ?_, ?_,
    (C97_by_version_partial h he).1⟩
  · unfold readIndex
    split
    · cases hx : st.cache.index v with
      | none =>
        refine readSeqs_congr (fun f hf => ?_)
        rw [readSeq_empty, readSeq_eq hb hs he hf]
      | some x =>
        obtain ⟨e', h1, h2⟩ := hder.index v x hx
        rw [he] at h1; cases h1
        exact h2.symm
    · rfl
  · unfold readMask
    cases hx : st.cache.mask v with
    | none =>
      refine readRows_congr (fun f hf => ?_) (fun f hf => ?_)
      · rw [readSeq_empty, readSeq_eq hb hs he hf]
      · rw [readDel_empty, readDel_eq hb hd he hf]
    | some x =>
      obtain ⟨e', h1, h2⟩ := hder.mask v x hx
      rw [he] at h1; cases h1
      exact h2.symm

/-- While a dataset is written by appends, deletes, updates, compactions, schema changes and index
commits, everything that is read through the session is what a new session would read, for every version,
after any number of loads, evictions and commits of any session.

Missing for the full claim: histories with a restore or an overwrite, and a dataset that is removed and
made again at the same path; see `C97_overwrite_violated`, `C97_restore_violated` and
`C97_remake_violated`.  `DelCoh`: no two deletion files of a fragment got the same random name. -/
theorem C97_partial {st : St} (h : SReach false st) (hc : st.sys.hist.Clean)
    (hlin : ∀ u e, 1 < u → st.sys.hist.look u = some e →
      (∀ w, e.job.tx.op ≠ .restore w) ∧ ∀ x y z, e.job.tx.op ≠ .overwrite x y z)
    (hne : ∀ u e, st.sys.hist.look u = some e → e.m.maxFrag ≠ 0 ∨ e.m.frags ≠ [])
    (hd : DelCoh st.sys.hist) {v : Nat} {e : Entry} (he : st.sys.hist.look v = some e) :
    Faithful st.cache v e :=
  faithful_of_coherent h (seqCoh_of_linear (sreach_reach h) hc hlin hne) hd he

/-- Without stable row ids the same holds for every history, restores and overwrites included. -/
theorem C97_no_row_ids_partial {st : St} (h : SReach false st)
    (hno : ∀ u e, st.sys.hist.look u = some e → ∀ f ∈ e.m.frags, f.rowIds = none)
    (hd : DelCoh st.sys.hist) {v : Nat} {e : Entry} (he : st.sys.hist.look v = some e) :
    Faithful st.cache v e := by
  refine faithful_of_coherent h ?_ hd he
  intro a b ea eb f g l l' ha _ hf _ _ hl
  rw [hno a ea ha f hf] at hl
  cases hl

/-- In plain terms: under the same conditions the row id index of a version with stable row ids pairs
each fragment with its own row ids, and the mask contains exactly the ids of the rows that are not
deleted. -/
theorem C97_index_and_mask_partial {st : St} (h : SReach false st) (hc : st.sys.hist.Clean)
    (hlin : ∀ u e, 1 < u → st.sys.hist.look u = some e →
      (∀ w, e.job.tx.op ≠ .restore w) ∧ ∀ x y z, e.job.tx.op ≠ .overwrite x y z)
    (hne : ∀ u e, st.sys.hist.look u = some e → e.m.maxFrag ≠ 0 ∨ e.m.frags ≠ [])
    (hd : DelCoh st.sys.hist) {v : Nat} {e : Entry} (he : st.sys.hist.look v = some e)
    (hst : e.m.usesStable = true) (hall : ∀ f ∈ e.m.frags, f.rowIds.isSome) :
    readIndex st.cache v e.m = some (e.m.frags.map (fun f => (f.id, f.rowIds.getD []))) ∧
      ∃ rows, readMask st.cache v e.m = some rows ∧
        ∀ i, i ∈ rows ↔ ∃ f ∈ e.m.frags, ∃ p, (f.rowIds.getD [])[p]? = some i ∧ p ∉ (f.del.map (·.offs)).getD [] := by
  have hf := C97_partial h hc hlin hne hd he
  rw [hf.index, hf.mask]
  constructor
  · unfold readIndex
    rw [if_pos hst]
    exact readSeqs_some hall
  · obtain ⟨x, h1, h2⟩ := readRows_mem hall
    exact ⟨x, h1, h2⟩

/-- A fragment without row ids in a version with stable row ids: the index is an error, not an index without the
fragment. -/
theorem C97_missing_row_ids_partial {st : St} (h : SReach false st) (hc : st.sys.hist.Clean)
    (hlin : ∀ u e, 1 < u → st.sys.hist.look u = some e →
      (∀ w, e.job.tx.op ≠ .restore w) ∧ ∀ x y z, e.job.tx.op ≠ .overwrite x y z)
    (hne : ∀ u e, st.sys.hist.look u = some e → e.m.maxFrag ≠ 0 ∨ e.m.frags ≠ [])
    (hd : DelCoh st.sys.hist) {v : Nat} {e : Entry} (he : st.sys.hist.look v = some e)
    {f : Frag} (hf : f ∈ e.m.frags) (hn : f.rowIds = none) : readIndex st.cache v e.m = none := by
  rw [(C97_partial h hc hlin hne hd he).index]
  unfold readIndex
  split
  · have : ∀ (c : Cache) (fs : List Frag), f ∈ fs → readSeqs (fun _ => c) fs = none := by
      intro c fs
      induction fs with
      | nil => simp
      | cons g fs ih =>
        intro hm
        unfold readSeqs
        rcases List.mem_cons.1 hm with rfl | hm
        · simp [readSeq, hn]
        · rw [ih hm]
          cases readSeq c g <;> rfl
    exact this _ _ hf
  · rfl

/-! ## Reaching states -/

theorem lift {d : Bool} {c : Cache} {s : Sys} (h : Reach s) :
    ∀ past, SReach d ⟨Sys.init, c, past⟩ → ∃ past', SReach d ⟨s, c, past'⟩ := by
  induction h with
  | init => exact fun past h => ⟨past, h⟩
  | @step a b _ hs ih =>
    intro past h
    obtain ⟨p', h'⟩ := ih past h
    exact ⟨_, h'.step (SStep.sys ⟨a, c, p'⟩ hs)⟩

/-- Two fragments with one id and different row ids: what was loaded for the one is returned for the
other. -/
theorem stale {d : Bool} {s : Sys} (hr : Reach s) {a b : Nat} {ea eb : Entry} (ha : s.hist.look a = some ea)
    (hb : s.hist.look b = some eb) {f g : Frag} (hf : f ∈ ea.m.frags) (hg : g ∈ eb.m.frags) (hid : f.id = g.id)
    {l l' : List Nat} (hl : f.rowIds = some l) (hl' : g.rowIds = some l') :
    ∃ st, SReach d st ∧ st.sys = s ∧ readSeq st.cache g = some l := by
  obtain ⟨p, h⟩ := lift (d := d) hr _ SReach.init
  refine ⟨_, h.step (SStep.seq _ a ea f l ha hf hl), rfl, ?_⟩
  unfold readSeq
  rw [hl']
  simp [St.next, put, hid, getOr]

/-- Two versions, two fragments with one id. -/
def Clash (h : Hist) (a b k : Nat) (l l' : List Nat) : Prop :=
  h.At a (fun ea => ∃ f ∈ ea.m.frags, f.id = k ∧ f.rowIds = some l) ∧
  h.At b (fun eb => ∃ g ∈ eb.m.frags, g.id = k ∧ g.rowIds = some l')

instance (h : Hist) (a b k : Nat) (l l' : List Nat) : Decidable (Clash h a b k l l') := by
  unfold Clash; infer_instance

theorem clash_stale {s : Sys} {n a b k : Nat} {l l' : List Nat} (hr : Reach s) (hq : Quiet s n)
    (hc : Clash s.hist a b k l l') : ∃ st v e g, SReach false st ∧ v ∉ st.sys.gone ∧ st.sys.hist.look v = some e ∧
      g ∈ e.m.frags ∧ g.rowIds = some l' ∧ readSeq st.cache g = some l := by
  obtain ⟨⟨ea, ha, f, hf, hfi, hl⟩, ⟨eb, hb, g, hg, hgi, hl'⟩⟩ := hc
  obtain ⟨st, h1, h2, h3⟩ := stale (d := false) hr ha hb hf hg (hfi.trans hgi.symm) hl hl'
  exact ⟨st, b, eb, g, h1, by rw [h2, hq.gone]; exact List.not_mem_nil, by rw [h2]; exact hb, hg, hl', h3⟩

/-- Stable row ids, three rows are written and then overwritten by four: the new rows have the ids 3 to 6.
A session that has read the first version takes them for 0, 1, 2. -/
theorem C97_overwrite_violated : ∃ st v e g, SReach false st ∧ v ∉ st.sys.gone ∧ st.sys.hist.look v = some e ∧
    g ∈ e.m.frags ∧ g.rowIds = some [3, 4, 5, 6] ∧ readSeq st.cache g = some [0, 1, 2] := by
  obtain ⟨s, n, h1, h2, _, h3⟩ := play_ex (cached := false) (j := xcreate [xnew 1 3] true)
    (js := [xtx 1 101 (.overwrite [xnew 2 4] xschema none) true])
    (fun h => Clash h 1 2 0 [0, 1, 2] [3, 4, 5, 6]) (by decide +kernel)
  exact clash_stale h1 h2 h3

/-- Append two rows, restore the version before, append three rows: the second append reuses fragment id 1
and the row ids 3 and 4; a session that has read the first append takes the three rows for two. -/
theorem C97_restore_violated : ∃ st v e g, SReach false st ∧ v ∉ st.sys.gone ∧ st.sys.hist.look v = some e ∧
    g ∈ e.m.frags ∧ g.rowIds = some [3, 4, 5] ∧ readSeq st.cache g = some [3, 4] := by
  obtain ⟨s, n, h1, h2, _, h3⟩ := play_ex (cached := false) (j := xcreate [xnew 1 3] true)
    (js := [xtx 1 101 (.append [xnew 2 2]) true, xtx 2 102 (.restore 1) true, xtx 3 103 (.append [xnew 3 3]) true])
    (fun h => Clash h 2 4 1 [3, 4] [3, 4, 5]) (by decide +kernel)
  exact clash_stale h1 h2 h3

theorem C97_violated : ¬ C97_statement := by
  intro hst
  obtain ⟨st, v, e, g, h1, h2, h3, h4, h5, h6⟩ := C97_overwrite_violated
  have h1' : SReach true st := by
    clear h2 h3 h4 h5 h6
    induction h1 with
    | init => exact SReach.init
    | step _ hs ih =>
      refine ih.step ?_
      cases hs with
      | sys h => exact SStep.sys _ h
      | own h w j v h1 h2 => exact SStep.own _ h w j v h1 h2
      | seq v e f l h1 h2 h3 => exact SStep.seq _ v e f l h1 h2 h3
      | del v e f d h1 h2 h3 => exact SStep.del _ v e f d h1 h2 h3
      | index v e p x h1 h2 h3 h4 => exact SStep.index _ v e p x h1 h2 h3 h4
      | mask v e p q x h1 h2 h3 h4 => exact SStep.mask _ v e p q x h1 h2 h3 h4
      | ixs v e h1 => exact SStep.ixs _ v e h1
      | txn v e h1 => exact SStep.txn _ v e h1
      | evict c h => exact SStep.evict _ c h
      | drop h => cases h
  have := (hst st h1' v e h3 h2).rowIds g h4
  rw [h5, h6] at this
  cases this

/-- A dataset with an index is removed and made again at the same path, without stable row ids or
overwrites: the session still finds the index that was removed. -/
theorem C97_remake_violated : ∃ st v e, SReach true st ∧ v ∉ st.sys.gone ∧ st.sys.hist.look v = some e ∧
    e.ix = [] ∧ ∃ i, readIxs st.cache v e = some [i] := by
  obtain ⟨s, n, h1, _, _, ⟨ea, ha, hai⟩⟩ := play_ex (cached := false) (j := xcreate [xnew 1 3])
    (js := [xtx 1 101 (.createIndex [⟨9, 1, [0], none⟩] [])])
    (fun h => h.At 2 (fun e => ∃ i ∈ e.ix, e.ix = [i])) (by decide +kernel)
  obtain ⟨i, _, hi⟩ := hai
  obtain ⟨t, n', k1, k2, _, ⟨eb, hb, hbi⟩⟩ := play_ex (cached := false) (j := xcreate [xnew 1 3])
    (js := [xtx 1 101 (.append [xnew 2 2])])
    (fun h => h.At 2 (fun e => e.ix = [])) (by decide +kernel)
  obtain ⟨p, g1⟩ := lift (d := true) h1 _ SReach.init
  have g2 := g1.step (SStep.ixs _ 2 ea ha)
  have g3 := g2.step (SStep.drop _ rfl)
  obtain ⟨p', g4⟩ := lift k1 _ g3
  refine ⟨_, 2, eb, g4, ?_, hb, hbi, i, ?_⟩
  · simp only; rw [k2.gone]; exact List.not_mem_nil
  · simp [readIxs, put, getOr, hi, St.next]

/-- A job that makes a dataset and sets a configuration key. -/
def jobWithConfig : Job := xtx 0 100 (.overwrite [xnew 1 3] xschema (some [(1, 2)]))

/-- The transaction in the cache can differ from the one in the file: a commit that sets configuration
keys while it writes the data has them in memory, not in what its file gives back. -/
theorem C97_transaction_violated : ∃ st v e, SReach false st ∧ v ∉ st.sys.gone ∧ st.sys.hist.look v = some e ∧
    readTxn st.cache v e = some (.overwrite [xnew 1 3] xschema (some [(1, 2)])) ∧
    readTxn Cache.empty v e = some (.overwrite [xnew 1 3] xschema none) := by
  have h : (attemptNew jobWithConfig.tx).toOption.isSome = true := by decide +kernel
  cases ha : attemptNew jobWithConfig.tx with
  | error x => rw [ha] at h; cases h
  | ok r =>
    obtain ⟨m, ix⟩ := r
    have st1 : Step Sys.init ({ Sys.init with hist := [⟨jobWithConfig, m, ix, []⟩] }.set 0 (.done jobWithConfig 1)) :=
      Step.create Sys.init 0 jobWithConfig m ix rfl rfl [xnew 1 3] xschema (some [(1, 2)]) rfl rfl rfl
        (by decide) ha
    have st2 := SReach.init.step (SStep.own (drops := false) St.init st1 0 jobWithConfig 1
      (by intro h; cases h) rfl)
    exact ⟨_, 1, ⟨jobWithConfig, m, ix, []⟩, st2, List.not_mem_nil, rfl, rfl, rfl⟩

/-! ## A case that meets the conditions -/

def plain : Op → Bool
  | .restore _ => false
  | .overwrite _ _ _ => false
  | _ => true

/-- What the example needs, in a form that can be computed. -/
def Fits (h : Hist) : Prop :=
  h.length = 3 ∧ (∀ u ∈ [2, 3], h.At u (fun e => plain e.job.tx.op = true)) ∧
  (∀ e ∈ h, e.m.frags ≠ []) ∧
  (∀ e ∈ h, ∀ f ∈ e.m.frags, ∀ d ∈ f.del.toList, d.offs = [1]) ∧
  h.At 3 (fun e => e.m.usesStable = true ∧ e.m.frags.map (fun f => (f.id, f.rowIds, f.offs)) =
    [(0, some [0, 1, 2], [1]), (1, some [3, 4], [])])

instance (h : Hist) : Decidable (Fits h) := by unfold Fits; infer_instance

/-- Three rows, two more, one deleted; the session has loaded the deletions of fragment 0, the row id
index and the mask of version 3 and the indices of version 1. -/
theorem C97_nonvacuous : ∃ st e, SReach false st ∧ st.sys.hist.Clean ∧
    (∀ u e, 1 < u → st.sys.hist.look u = some e →
      (∀ w, e.job.tx.op ≠ .restore w) ∧ ∀ x y z, e.job.tx.op ≠ .overwrite x y z) ∧
    (∀ u e, st.sys.hist.look u = some e → e.m.maxFrag ≠ 0 ∨ e.m.frags ≠ []) ∧ DelCoh st.sys.hist ∧
    st.sys.hist.look 3 = some e ∧ st.cache.mask 3 = some [0, 2, 3, 4] ∧
    st.cache.index 3 = some [(0, [0, 1, 2]), (1, [3, 4])] ∧ (st.cache.ixs 1).isSome := by
  obtain ⟨s, n, h1, _, h3, h4, h5, h6, h7, ⟨e, he, hs, hfr⟩⟩ := play_ex (cached := false)
    (j := xcreate [xnew 1 3] true)
    (js := [xtx 1 101 (.append [xnew 2 2]) true,
      xtx 2 102 (.delete [⟨0, [xf 1], some ⟨2, 7, [1]⟩, some [0, 1, 2], some 3⟩] [] 0) true])
    Fits (by decide +kernel)
  have hp : ∀ o : Op, plain o = true → (∀ w, o ≠ .restore w) ∧ ∀ x y z, o ≠ .overwrite x y z := by
    intro o ho
    constructor
    · intro w h; rw [h] at ho; cases ho
    · intro x y z h; rw [h] at ho; cases ho
  have hlen : ∀ u x, s.hist.look u = some x → u ≤ 3 := fun u x h => by have := (look_le h).2; omega
  obtain ⟨e1, he1⟩ := look_exists (h := s.hist) (v := 1) (by omega) (by omega)
  obtain ⟨p, g1⟩ := lift (d := false) h1 _ SReach.init
  match hfe : e.m.frags, hfr with
  | [f, g], hfr =>
    simp only [List.map_cons, List.map_nil, List.cons.injEq, Prod.mk.injEq, and_true] at hfr
    obtain ⟨⟨f1, f2, f3⟩, g1', g2', g3'⟩ := hfr
    have hseqs : ∀ c : Cache, c.seqs = Cache.empty.seqs →
        readSeqs (fun _ => c) e.m.frags = some [(0, [0, 1, 2]), (1, [3, 4])] := by
      intro c hc
      rw [hfe]
      simp [readSeqs, readSeq, f1, f2, g1', g2', hc, Cache.empty, getOr]
    have hrows : ∀ c : Cache, c.seqs = Cache.empty.seqs → c.dels = Cache.empty.dels →
        readRows (fun _ => c) (fun _ => c) e.m.frags = some [0, 2, 3, 4] := by
      intro c hc hd
      have hk : ∀ x : Frag, ∀ l, keepRows (readDel c x) l = dropAt x.offs l := by
        intro x l
        unfold readDel Frag.offs
        cases x.del with
        | none =>
          have : l.zipIdx.filter (fun _ => true) = l.zipIdx := List.filter_eq_self.2 (fun _ _ => rfl)
          simp [keepRows, dropAt, this]
        | some d => simp [hd, Cache.empty, getOr, keepRows]
      rw [hfe]
      simp only [readRows, hk, f3, g3']
      simp [readSeq, f2, g2', hc, Cache.empty, getOr]
      decide
    have g2 := g1.step (SStep.index _ 3 e (fun _ => Cache.empty) _ he hs (fun _ => (base_inv g1).1) (hseqs _ rfl))
    have g3 := g2.step (SStep.mask _ 3 e (fun _ => Cache.empty) (fun _ => Cache.empty) _ he
      (fun _ => List.mem_cons_of_mem _ (base_inv g1).1) (fun _ => List.mem_cons_of_mem _ (base_inv g1).1) (hrows _ rfl rfl))
    have g4 := g3.step (SStep.ixs _ 1 e1 he1)
    refine ⟨_, e, g4, h3, ?_, ?_, ?_, he, rfl, rfl, rfl⟩
    · intro u x hu hx
      have := hlen u x hx
      have hmem : u ∈ [2, 3] := by
        have : u = 2 ∨ u = 3 := by omega
        rcases this with h | h <;> simp [h]
      obtain ⟨y, hy, hpy⟩ := h5 u hmem
      have hx' : s.hist.look u = some x := hx
      rw [hx'] at hy; cases hy
      exact hp _ hpy
    · intro u x hx
      exact .inr (h6 x (look_mem hx))
    · intro a b ea eb f g d d' ha hb hf hg _ hd hd' _ _
      rw [h7 ea (look_mem ha) f hf d (by rw [hd]; simp), h7 eb (look_mem hb) g hg d' (by rw [hd']; simp)]

  | [], hfr => simp at hfr
  | [_], hfr => simp at hfr
  | _ :: _ :: _ :: _, hfr => simp at hfr

end Verif.Session
