import Verif.Session.Model
import Verif.Txn.Valid
/-!
# Lemmas about the caches of a session
-/
namespace Verif.Session
open Verif.Txn

theorem step_look {s t : Sys} (h : Step s t) {v : Nat} {e : Entry} (he : s.hist.look v = some e) :
    t.hist.look v = some e := by
  cases h with
  | create w j m ix hw h0 => rw [h0] at he; simp [Hist.look] at he
  | commit w j p h m ix hw hh hnw hatt => exact look_cons_some _ he
  | _ => exact he

theorem step_gone {s t : Sys} (h : Step s t) {v : Nat} (hv : v ∈ s.gone) : v ∈ t.gone := by
  cases h with
  | cleanup u hu => exact List.mem_cons_of_mem _ hv
  | _ => exact hv

theorem set_done {s : Sys} {w w' : Nat} {x : W} {j : Job} {v : Nat} (h1 : s.ws w ≠ .done j v)
    (h2 : (s.set w' x).ws w = .done j v) : x = .done j v := by
  simp only [Sys.set] at h2
  split at h2
  · exact h2
  · exact absurd h2 h1

/-- A writer that has just reported success wrote the version it reports, or a version that had been
cleaned up. -/
theorem step_done {s t : Sys} (h : Step s t) {w : Nat} {j : Job} {v : Nat} (hold : s.ws w ≠ .done j v)
    (hnew : t.ws w = .done j v) : (∃ e, t.hist.look v = some e ∧ e.job = j) ∨ v ∈ t.gone := by
  cases h with
  | create w' j' m ix hw h0 =>
    have := set_done (s := { s with hist := [⟨j', m, ix, []⟩] }) hold hnew
    cases this
    exact .inl ⟨_, rfl, rfl⟩
  | commit w' j' p h m ix hw hh hnw hatt =>
    have := set_done (s := { s with hist := ⟨j', m, ix, s.gone⟩ :: s.hist }) hold hnew
    cases this
    exact .inl ⟨_, look_top _ _, rfl⟩
  | late w' j' base hw hb hg =>
    have := set_done hold hnew
    cases this
    exact .inr hg
  | begin w' j' e hw hread hav hex hprep => cases set_done hold hnew
  | check w' j' o c hw hord hok => cases set_done hold hnew
  | lose w' j' base hw hb hg => cases set_done hold hnew
  | recheck w' j' tg c hw hok => cases set_done hold hnew
  | cleanup u hu => exact absurd hnew hold
  | stop w' => cases set_done hold hnew

/-! ## What the entries can be, whatever the history is -/

structure Base (s : Sys) (c : Cache) : Prop where
  seqs : ∀ i l, c.seqs i = some l → ∃ v e f, s.hist.look v = some e ∧ f ∈ e.m.frags ∧ f.id = i ∧ f.rowIds = some l
  dels : ∀ i r k o, c.dels i r k = some o → ∃ v e f d, s.hist.look v = some e ∧ f ∈ e.m.frags ∧ f.del = some d ∧
    f.id = i ∧ d.readVersion = r ∧ d.id = k ∧ d.offs = o
  ixs : ∀ v x, c.ixs v = some x → ∃ e, s.hist.look v = some e ∧ x = e.ix
  txns : ∀ v o, c.txns v = some o →
    v ∈ s.gone ∨ ∃ e, s.hist.look v = some e ∧ (o = e.job.tx.op ∨ o = e.job.tx.op.stored)

theorem Base.empty (s : Sys) : Base s Cache.empty :=
  ⟨fun _ _ h => (nomatch h), fun _ _ _ _ h => (nomatch h), fun _ _ h => (nomatch h), fun _ _ h => (nomatch h)⟩

theorem Base.mono {s t : Sys} {c : Cache} (hl : ∀ v e, s.hist.look v = some e → t.hist.look v = some e)
    (hg : ∀ v, v ∈ s.gone → v ∈ t.gone) (h : Base s c) : Base t c where
  seqs i l hi := by
    obtain ⟨v, e, f, h1, h2⟩ := h.seqs i l hi
    exact ⟨v, e, f, hl v e h1, h2⟩
  dels i r k o hi := by
    obtain ⟨v, e, f, d, h1, h2⟩ := h.dels i r k o hi
    exact ⟨v, e, f, d, hl v e h1, h2⟩
  ixs v x hv := by
    obtain ⟨e, h1, h2⟩ := h.ixs v x hv
    exact ⟨e, hl v e h1, h2⟩
  txns v o hv := by
    rcases h.txns v o hv with h1 | ⟨e, h1, h2⟩
    · exact .inl (hg v h1)
    · exact .inr ⟨e, hl v e h1, h2⟩

theorem kept_some {β : Type} {o n : Option β} {x : β} (h : Kept o n) (hx : n = some x) : o = some x := by
  rcases h with h | h
  · rw [← h]; exact hx
  · rw [h] at hx; cases hx

theorem put_some {β : Type} {m : Nat → Option β} {k i : Nat} {x y : β} (h : put m k x i = some y) :
    (i = k ∧ x = y) ∨ m i = some y := by
  unfold put at h
  split at h
  · exact .inl ⟨by assumption, Option.some.inj h⟩
  · exact .inr h

theorem base_inv {st : St} (h : SReach false st) : st.cache ∈ st.past ∧ ∀ c ∈ st.past, Base st.sys c := by
  induction h with
  | init =>
    refine ⟨List.mem_singleton.2 rfl, fun c hc => ?_⟩
    rw [List.mem_singleton.1 hc]
    exact Base.empty _
  | @step a b _ hs ih =>
    obtain ⟨hin, ih⟩ := ih
    have hcur := ih _ hin
    cases hs with
    | sys h =>
      refine ⟨List.mem_cons_self, fun c hc => ?_⟩
      have : c ∈ a.past := by
        rcases List.mem_cons.1 hc with h1 | h1
        · rw [h1]; exact hin
        · exact h1
      exact (ih c this).mono (fun _ _ => step_look h) (fun _ => step_gone h)
    | own h w j v hold hnew =>
      refine ⟨List.mem_cons_self, fun c hc => ?_⟩
      have hm := fun c hc => (ih c hc).mono (fun _ _ => step_look h) (fun _ => step_gone h)
      rcases List.mem_cons.1 hc with h1 | h1
      · subst h1
        have hb := hm _ hin
        refine ⟨hb.seqs, hb.dels, hb.ixs, fun v' o ho => ?_⟩
        rcases put_some ho with ⟨h2, h3⟩ | h2
        · subst h2; subst h3
          rcases step_done h hold hnew with ⟨e, k1, k2⟩ | k1
          · exact .inr ⟨e, k1, .inl (by rw [k2])⟩
          · exact .inl k1
        · exact hb.txns v' o h2
      · exact hm c h1
    | seq v e f l he hf hl =>
      refine ⟨List.mem_cons_self, fun c hc => ?_⟩
      rcases List.mem_cons.1 hc with h1 | h1
      · subst h1
        refine ⟨fun i l' hi => ?_, hcur.dels, hcur.ixs, hcur.txns⟩
        rcases put_some hi with ⟨h2, h3⟩ | h2
        · exact ⟨v, e, f, he, hf, h2.symm, by rw [← h3]; exact hl⟩
        · exact hcur.seqs i l' h2
      · exact ih c h1
    | del v e f d he hf hd =>
      refine ⟨List.mem_cons_self, fun c hc => ?_⟩
      rcases List.mem_cons.1 hc with h1 | h1
      · subst h1
        refine ⟨hcur.seqs, fun i r k o hi => ?_, hcur.ixs, hcur.txns⟩
        simp only at hi
        split at hi
        · rename_i h2
          exact ⟨v, e, f, d, he, hf, hd, h2.1.symm, h2.2.1.symm, h2.2.2.symm, Option.some.inj hi⟩
        · exact hcur.dels i r k o hi
      · exact ih c h1
    | index v e pick x he hs hp hx =>
      refine ⟨List.mem_cons_self, fun c hc => ?_⟩
      rcases List.mem_cons.1 hc with h1 | h1
      · subst h1; exact ⟨hcur.seqs, hcur.dels, hcur.ixs, hcur.txns⟩
      · exact ih c h1
    | mask v e pick pickD x he hp hpd hx =>
      refine ⟨List.mem_cons_self, fun c hc => ?_⟩
      rcases List.mem_cons.1 hc with h1 | h1
      · subst h1; exact ⟨hcur.seqs, hcur.dels, hcur.ixs, hcur.txns⟩
      · exact ih c h1
    | ixs v e he =>
      refine ⟨List.mem_cons_self, fun c hc => ?_⟩
      rcases List.mem_cons.1 hc with h1 | h1
      · subst h1
        refine ⟨hcur.seqs, hcur.dels, fun v' x hv => ?_, hcur.txns⟩
        rcases put_some hv with ⟨h2, h3⟩ | h2
        · subst h2; exact ⟨e, he, h3.symm⟩
        · exact hcur.ixs v' x h2
      · exact ih c h1
    | txn v e he =>
      refine ⟨List.mem_cons_self, fun c hc => ?_⟩
      rcases List.mem_cons.1 hc with h1 | h1
      · subst h1
        refine ⟨hcur.seqs, hcur.dels, hcur.ixs, fun v' o hv => ?_⟩
        rcases put_some hv with ⟨h2, h3⟩ | h2
        · subst h2; exact .inr ⟨e, he, .inr h3.symm⟩
        · exact hcur.txns v' o h2
      · exact ih c h1
    | evict c' hsub =>
      refine ⟨List.mem_cons_self, fun c hc => ?_⟩
      rcases List.mem_cons.1 hc with h1 | h1
      · subst h1
        exact ⟨fun i l hi => hcur.seqs i l (kept_some (hsub.seqs i) hi),
          fun i r k o hi => hcur.dels i r k o (kept_some (hsub.dels i r k) hi),
          fun v x hv => hcur.ixs v x (kept_some (hsub.ixs v) hv),
          fun v o hv => hcur.txns v o (kept_some (hsub.txns v) hv)⟩
      · exact ih c h1
    | drop h => cases h

/-- The dataset of a reachable state is reachable without a session. -/
theorem sreach_reach {d : Bool} {st : St} (h : SReach d st) : Reach st.sys := by
  induction h with
  | init => exact Reach.init
  | step _ hs ih =>
    cases hs with
    | sys h => exact ih.step h
    | own h => exact ih.step h
    | drop => exact Reach.init
    | _ => exact ih

/-! ## Histories in which a key stands for one thing -/

/-- A fragment id stands for one sequence of row ids. -/
def SeqCoh (h : Hist) : Prop :=
  ∀ a b ea eb f g l l', h.look a = some ea → h.look b = some eb → f ∈ ea.m.frags → g ∈ eb.m.frags → f.id = g.id →
    f.rowIds = some l → g.rowIds = some l' → l = l'

/-- The path of a deletion file stands for one set of offsets (the id in it is random). -/
def DelCoh (h : Hist) : Prop :=
  ∀ a b ea eb f g d d', h.look a = some ea → h.look b = some eb → f ∈ ea.m.frags → g ∈ eb.m.frags → f.id = g.id →
    f.del = some d → g.del = some d' → d.readVersion = d'.readVersion → d.id = d'.id → d.offs = d'.offs

theorem readSeq_eq {s : Sys} {c : Cache} (hb : Base s c) (hc : SeqCoh s.hist) {v : Nat} {e : Entry}
    (he : s.hist.look v = some e) {f : Frag} (hf : f ∈ e.m.frags) : readSeq c f = f.rowIds := by
  unfold readSeq
  cases hl : f.rowIds with
  | none => rfl
  | some l =>
    simp only
    cases hs : c.seqs f.id with
    | none => rfl
    | some l' =>
      obtain ⟨v', e', f', h1, h2, h3, h4⟩ := hb.seqs _ _ hs
      rw [hc v' v e' e f' f l' l h1 he h2 hf h3 h4 hl]
      rfl

theorem readDel_eq {s : Sys} {c : Cache} (hb : Base s c) (hc : DelCoh s.hist) {v : Nat} {e : Entry}
    (he : s.hist.look v = some e) {f : Frag} (hf : f ∈ e.m.frags) : readDel c f = f.del.map (·.offs) := by
  unfold readDel
  cases hl : f.del with
  | none => rfl
  | some d =>
    simp only [Option.map_some]
    cases hs : c.dels f.id d.readVersion d.id with
    | none => rfl
    | some o =>
      obtain ⟨v', e', f', d', h1, h2, h3, h4, h5, h6, h7⟩ := hb.dels _ _ _ _ hs
      rw [← h7, hc v' v e' e f' f d' d h1 he h2 hf h4 h3 hl h5 h6]
      rfl

theorem readSeq_empty (f : Frag) : readSeq Cache.empty f = f.rowIds := by
  unfold readSeq
  cases f.rowIds <;> rfl

theorem readDel_empty (f : Frag) : readDel Cache.empty f = f.del.map (·.offs) := by
  unfold readDel
  cases f.del <;> rfl

theorem readSeqs_congr {p q : Frag → Cache} {fs : List Frag} (h : ∀ f ∈ fs, readSeq (p f) f = readSeq (q f) f) :
    readSeqs p fs = readSeqs q fs := by
  induction fs with
  | nil => rfl
  | cons f fs ih =>
    simp only [readSeqs]
    rw [h f List.mem_cons_self, ih (fun g hg => h g (List.mem_cons_of_mem _ hg))]

theorem readRows_congr {p q p' q' : Frag → Cache} {fs : List Frag} (h : ∀ f ∈ fs, readSeq (p f) f = readSeq (q f) f)
    (h' : ∀ f ∈ fs, readDel (p' f) f = readDel (q' f) f) : readRows p p' fs = readRows q q' fs := by
  induction fs with
  | nil => rfl
  | cons f fs ih =>
    simp only [readRows]
    rw [h f List.mem_cons_self, h' f List.mem_cons_self,
      ih (fun g hg => h g (List.mem_cons_of_mem _ hg)) (fun g hg => h' g (List.mem_cons_of_mem _ hg))]

/-- The entries computed from other entries. -/
structure Derived (s : Sys) (c : Cache) : Prop where
  index : ∀ v x, c.index v = some x →
    ∃ e, s.hist.look v = some e ∧ readSeqs (fun _ => Cache.empty) e.m.frags = some x
  mask : ∀ v x, c.mask v = some x →
    ∃ e, s.hist.look v = some e ∧ readRows (fun _ => Cache.empty) (fun _ => Cache.empty) e.m.frags = some x

theorem Derived.mono {s t : Sys} {c : Cache} (hl : ∀ v e, s.hist.look v = some e → t.hist.look v = some e)
    (h : Derived s c) : Derived t c where
  index v x hx := by
    obtain ⟨e, h1, h2⟩ := h.index v x hx
    exact ⟨e, hl v e h1, h2⟩
  mask v x hx := by
    obtain ⟨e, h1, h2⟩ := h.mask v x hx
    exact ⟨e, hl v e h1, h2⟩

theorem SeqCoh.back {h h' : Hist} (hl : ∀ v e, h.look v = some e → h'.look v = some e) (hc : SeqCoh h') : SeqCoh h :=
  fun a b ea eb f g l l' h1 h2 => hc a b ea eb f g l l' (hl _ _ h1) (hl _ _ h2)

theorem DelCoh.back {h h' : Hist} (hl : ∀ v e, h.look v = some e → h'.look v = some e) (hc : DelCoh h') : DelCoh h :=
  fun a b ea eb f g d d' h1 h2 => hc a b ea eb f g d d' (hl _ _ h1) (hl _ _ h2)

/-- A step of the session does not lose versions. -/
theorem sstep_look {a b : St} (h : SStep false a b) (v : Nat) (e : Entry) (he : a.sys.hist.look v = some e) :
    b.sys.hist.look v = some e := by
  cases h with
  | sys h => exact step_look h he
  | own h => exact step_look h he
  | drop h => cases h
  | _ => exact he

theorem derived_inv {st : St} (h : SReach false st) (h1 : SeqCoh st.sys.hist) (h2 : DelCoh st.sys.hist) :
    ∀ c ∈ st.past, Derived st.sys c := by
  induction h with
  | init =>
    intro c hc
    rw [List.mem_singleton.1 hc]
    exact ⟨fun _ _ h => (nomatch h), fun _ _ h => (nomatch h)⟩
  | @step a b hr hs ih =>
    have ih := ih (h1.back (sstep_look hs)) (h2.back (sstep_look hs))
    obtain ⟨hin, hbase⟩ := base_inv hr
    have h1' := h1.back (sstep_look hs)
    have h2' := h2.back (sstep_look hs)
    have hmono := fun c hc => (ih c hc).mono (sstep_look hs)
    have hcur := hmono _ hin
    cases hs with
    | index v e pick x he hst hp hx =>
      intro c hc
      rcases List.mem_cons.1 hc with h3 | h3
      · subst h3
        refine ⟨fun v' x' hv => ?_, hcur.mask⟩
        rcases put_some hv with ⟨k1, k2⟩ | k1
        · subst k1; subst k2
          refine ⟨e, he, ?_⟩
          rw [← hx]
          refine readSeqs_congr (fun f hf => ?_)
          rw [readSeq_empty, readSeq_eq (hbase _ (hp f)) h1' he hf]
        · exact hcur.index v' x' k1
      · exact hmono c h3
    | mask v e pick pickD x he hp hpd hx =>
      intro c hc
      rcases List.mem_cons.1 hc with h3 | h3
      · subst h3
        refine ⟨hcur.index, fun v' x' hv => ?_⟩
        rcases put_some hv with ⟨k1, k2⟩ | k1
        · subst k1; subst k2
          refine ⟨e, he, ?_⟩
          rw [← hx]
          refine readRows_congr (fun f hf => ?_) (fun f hf => ?_)
          · rw [readSeq_empty, readSeq_eq (hbase _ (hp f)) h1' he hf]
          · rw [readDel_empty, readDel_eq (hbase _ (hpd f)) h2' he hf]
        · exact hcur.mask v' x' k1
      · exact hmono c h3
    | evict c' hsub =>
      intro c hc
      rcases List.mem_cons.1 hc with h3 | h3
      · subst h3
        exact ⟨fun v x hv => hcur.index v x (kept_some (hsub.index v) hv),
          fun v x hv => hcur.mask v x (kept_some (hsub.mask v) hv)⟩
      · exact hmono c h3
    | drop h => cases h
    | _ =>
      intro c hc
      rcases List.mem_cons.1 hc with h3 | h3
      · subst h3
        exact ⟨hcur.index, hcur.mask⟩
      · exact hmono c h3

theorem readSeqs_some {fs : List Frag} (h : ∀ f ∈ fs, f.rowIds.isSome) :
    readSeqs (fun _ => Cache.empty) fs = some (fs.map (fun f => (f.id, f.rowIds.getD []))) := by
  induction fs with
  | nil => rfl
  | cons f fs ih =>
    obtain ⟨l, hl⟩ := Option.isSome_iff_exists.1 (h f List.mem_cons_self)
    simp only [readSeqs]
    rw [readSeq_empty, ih (fun g hg => h g (List.mem_cons_of_mem _ hg)), hl]
    simp [hl]

theorem mem_dropAt {offs l : List Nat} {x : Nat} : x ∈ dropAt offs l ↔ ∃ p, l[p]? = some x ∧ p ∉ offs := by
  unfold dropAt
  simp only [List.mem_map, List.mem_filter, Bool.not_eq_true', List.contains_eq_mem, decide_eq_false_iff_not]
  constructor
  · rintro ⟨⟨y, p⟩, ⟨h1, h2⟩, h3⟩
    simp only at h2 h3
    subst h3
    exact ⟨p, by have := List.mem_zipIdx_iff_getElem?.1 h1; simpa using this, h2⟩
  · rintro ⟨p, h1, h2⟩
    exact ⟨(x, p), ⟨List.mem_zipIdx_iff_getElem?.2 (by simpa using h1), h2⟩, rfl⟩

theorem readRows_mem {fs : List Frag} (h : ∀ f ∈ fs, f.rowIds.isSome) :
    ∃ x, readRows (fun _ => Cache.empty) (fun _ => Cache.empty) fs = some x ∧
      ∀ i, i ∈ x ↔ ∃ f ∈ fs, ∃ p, (f.rowIds.getD [])[p]? = some i ∧ p ∉ f.offs := by
  induction fs with
  | nil => exact ⟨[], rfl, fun i => by simp⟩
  | cons f fs ih =>
    obtain ⟨l, hl⟩ := Option.isSome_iff_exists.1 (h f List.mem_cons_self)
    obtain ⟨r, hr, hm⟩ := ih (fun g hg => h g (List.mem_cons_of_mem _ hg))
    simp only [readRows]
    rw [readSeq_empty, hr, hl, readDel_empty]
    refine ⟨_, rfl, fun i => ?_⟩
    have hd : ∀ i, i ∈ keepRows (f.del.map (·.offs)) l ↔ ∃ p, (f.rowIds.getD [])[p]? = some i ∧ p ∉ f.offs := by
      intro i
      unfold Frag.offs keepRows
      rw [hl]
      cases f.del with
      | none => simp [List.mem_iff_getElem?]
      | some d => simp only [Option.map_some, Option.getD_some]; exact mem_dropAt
    simp only [List.mem_append, List.mem_cons]
    rw [hd i, hm i]
    constructor
    · rintro (h1 | ⟨g, hg, h1⟩)
      · exact ⟨f, .inl rfl, h1⟩
      · exact ⟨g, .inr hg, h1⟩
    · rintro ⟨g, hg | hg, h1⟩
      · subst hg; exact .inl h1
      · exact .inr ⟨g, hg, h1⟩

end Verif.Session
