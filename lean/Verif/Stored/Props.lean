import Verif.Stored.Lemmas
import Verif.Txn.Model
/-!
# C19, C43, C51, C52: what is written is what is read back
-/
namespace Verif.Stored

/-! ## C51: schemas -/

/-- A schema as `set_field_id` leaves it: every field has an id of its own, none is the "unassigned" id
`-1`, children name their parent, top-level fields name `-1`. -/
def Forest.Ok (f : Forest) : Prop := f.Linked (-1) ∧ f.ids.Nodup ∧ (-1 : Int) ∉ f.ids

/-- C51: the flat field list written to a manifest is read back as the same tree, for any nesting. -/
theorem C51_schema_tree (f : Forest) (h : f.Ok) : unflatten (flatten f) = .ok f := by
  have := unflatten_top (f := .nil) h.1 h.2.1 (by simp [Forest.ids]) h.2.2
  exact this

/-- C51: different schemas are stored differently. -/
theorem C51_schema_injective (f g : Forest) (hf : f.Ok) (hg : g.Ok) (h : flatten f = flatten g) : f = g := by
  have h1 := C51_schema_tree f hf
  have h2 := C51_schema_tree g hg
  rw [h, h2] at h1
  exact (Except.ok.inj h1).symm

/-- The order of the fields in the list, and so the position of a column, is a pre-order walk. -/
theorem C51_schema_order (f : Forest) : (flatten f).map (·.id) = f.ids := by
  induction f with
  | nil => rfl
  | cons a k r ihk ihr => simp [flatten, Forest.ids, ihk, ihr, encField]

def xattr (id parent : Int) (name : String) : Attr :=
  ⟨name, id, parent, "struct", [(extKey, "lance.x"), ("k", "v")], some .dictionary, true, some ⟨8, 2, none⟩, .blob⟩

def xforest : Forest :=
  .cons (xattr 4 (-1) "a") (.cons (xattr 7 4 "b") (.cons (xattr 1 7 "c") .nil .nil) (.cons (xattr 2 4 "d") .nil .nil))
    (.cons (xattr 0 (-1) "e") (.cons (xattr 9 0 "f") .nil .nil) .nil)

theorem xforest_ok : xforest.Ok := by
  refine ⟨?_, by decide, by decide⟩
  have hp : ∀ i p n, (xattr i p n).Plain := by
    intro i p n d hd
    simp only [xattr, Option.some.injEq] at hd
    subst hd
    exact ⟨rfl, by decide, by decide⟩
  exact ⟨rfl, hp _ _ _, ⟨rfl, hp _ _ _, ⟨rfl, hp _ _ _, trivial, trivial⟩, rfl, hp _ _ _, trivial, trivial⟩,
    rfl, hp _ _ _, ⟨rfl, hp _ _ _, trivial, trivial⟩, trivial⟩

example : unflatten (flatten xforest) = .ok xforest := C51_schema_tree _ xforest_ok
example : (flatten xforest).length = 6 := by decide

/-- Without distinct ids the tree is not recovered: the child of the second field lands under the first. -/
example : unflatten (flatten (.cons (xattr 3 (-1) "a") .nil
    (.cons (xattr 3 (-1) "b") (.cons (xattr 5 3 "c") .nil .nil) .nil)))
    = .ok (.cons (xattr 3 (-1) "a") (.cons (xattr 5 3 "c") .nil .nil) (.cons (xattr 3 (-1) "b") .nil .nil)) := by
  rfl

/-! ## C43: fragments and indices -/

/-- C43 as claimed: fragment metadata written to a manifest and read back is the same. -/
def C43_statement : Prop := ∀ f : Frag, decFrag (encFrag f) = .ok f

/-- The fragments whose known counts are not zero. -/
def Frag.CountsNonzero (f : Frag) : Prop :=
  f.phys ≠ some 0 ∧ ∀ d, f.del = some d → d.num ≠ some 0

/-- C43, exactly: a fragment comes back unchanged iff no known count is zero.  Missing from the full
claim: a known count of zero is read back as unknown. -/
theorem C43_fragment_partial (f : Frag) : decFrag (encFrag f) = .ok f ↔ f.CountsNonzero := by
  rw [decFrag_encFrag]
  obtain ⟨i, fs, d, ids, p⟩ := f
  rcases p with _ | _ | p <;> rcases d with _ | ⟨r, di, t, _ | _ | n⟩ <;>
    simp [normFrag, normDel, Frag.CountsNonzero]

/-- C43: reading never fails, and apart from counts of zero everything is kept, in particular the path
of the deletion file (read version, id and type) and the row ids. -/
theorem C43_fragment_rest (f : Frag) : ∃ g, decFrag (encFrag f) = .ok g ∧
    g.id = f.id ∧ g.files = f.files ∧ g.ids = f.ids ∧ g.phys.getD 0 = f.phys.getD 0 ∧
    g.del.map (fun d => (d.read, d.id, d.type, d.num.getD 0)) =
      f.del.map (fun d => (d.read, d.id, d.type, d.num.getD 0)) := by
  refine ⟨_, decFrag_encFrag f, rfl, rfl, rfl, ?_, ?_⟩
  · obtain ⟨i, fs, d, ids, p⟩ := f
    rcases p with _ | _ | p <;> simp [normFrag]
  · obtain ⟨i, fs, d, ids, p⟩ := f
    rcases d with _ | ⟨r, di, t, _ | _ | n⟩ <;> simp [normFrag, normDel]

/-- A fragment with a deletion file that deletes nothing loses its row count: it is 5 before storing and
unknown afterwards. -/
theorem C43_violated : ¬ C43_statement ∧
    ∃ f g : Frag, decFrag (encFrag f) = .ok g ∧ f.numRows = .ok (some 5) ∧ g.numRows = .ok none := by
  refine ⟨fun h => ?_, ⟨3, [], some ⟨1, 2, .bitmap, some 0⟩, none, some 5⟩,
    ⟨3, [], some ⟨1, 2, .bitmap, none⟩, none, some 5⟩, rfl, rfl, rfl⟩
  have := (C43_fragment_partial ⟨0, [], none, none, some 0⟩).1 (h _)
  exact this.1 rfl

example : (⟨3, [⟨"a.lance", [0, 1], [0, 1], 2, 0⟩], some ⟨1, 2, .bitmap, some 4⟩, some (.inline [1, 2]),
    some 5⟩ : Frag).CountsNonzero := by
  exact ⟨by simp, by rintro d hd; cases hd; simp⟩

/-- C43 for indices: index metadata comes back unchanged, including an empty or absent bitmap. -/
theorem C43_index (i : Idx) : decIdx (encIdx i) = .ok i := decIdx_encIdx i

example : decIdx (encIdx ⟨⟨#[0, 1, 2, 3, 4, 5, 6, 7, 8, 9, 10, 11, 12, 13, 14, 15], rfl⟩, [1], "i", 7,
    some [], none⟩) =
  .ok ⟨⟨#[0, 1, 2, 3, 4, 5, 6, 7, 8, 9, 10, 11, 12, 13, 14, 15], rfl⟩, [1], "i", 7, some [], none⟩ :=
  C43_index _

/-! ## C19: transactions -/

/-- C19 as claimed: whatever was written is read back. -/
def C19_statement : Prop := ∀ t : Tx, reread t = .ok t

/-- A schema a transaction can carry: no schema metadata. -/
def Schema.NoMd (s : Schema) : Prop := s.fields.Ok ∧ s.md = []

/-- The operations that are stored faithfully. -/
def Op.Ok : Op → Prop
  | .append fs => ∀ f ∈ fs, f.CountsNonzero
  | .delete u _ _ => ∀ f ∈ u, f.CountsNonzero
  | .overwrite fs s c => (∀ f ∈ fs, f.CountsNonzero) ∧ s.NoMd ∧ c = some []
  | .createIndex _ _ => True
  | .rewrite gs _ => gs ≠ [] ∧ ∀ g ∈ gs, (∀ f ∈ g.old, f.CountsNonzero) ∧ ∀ f ∈ g.new, f.CountsNonzero
  | .dataReplacement _ => True
  | .merge fs s => (∀ f ∈ fs, f.CountsNonzero) ∧ s.NoMd
  | .restore _ => True
  | .reserve _ => True
  | .update _ u n => (∀ f ∈ u, f.CountsNonzero) ∧ ∀ f ∈ n, f.CountsNonzero
  | .project s => s.NoMd
  | .updateConfig u d s f => u ≠ some [] ∧ d ≠ some [] ∧ s ≠ some [] ∧ f ≠ some []

def Op.isBlobOp : Op → Prop
  | .append _ => True
  | .overwrite _ _ _ => True
  | _ => False

def Tx.Ok (t : Tx) : Prop :=
  t.op.Ok ∧ (∀ b, t.blobs = some b → b.isBlobOp ∧ b.Ok) ∧ t.tag ≠ some ""

theorem frags_back {fs : List Frag} (h : ∀ f ∈ fs, f.CountsNonzero) :
    mapE decFrag (fs.map encFrag) = .ok fs :=
  mapE_id (fun f hf => (C43_fragment_partial f).2 (h f hf))

theorem nonEmpty_getD {α : Type} {o : Option (List α)} (h : o ≠ some []) : nonEmpty (o.getD []) = o := by
  rcases o with _ | _ | ⟨a, l⟩
  · rfl
  · exact absurd rfl h
  · simp [nonEmpty]

theorem schema_back {s : Schema} (h : s.NoMd) : unflatten (flatten s.fields) = .ok s.fields ∧ (⟨s.fields, []⟩ : Schema) = s := by
  refine ⟨C51_schema_tree _ h.1, ?_⟩
  obtain ⟨f, m⟩ := s
  have : m = [] := h.2
  rw [this]

theorem op_back (o : Op) (h : o.Ok) : decOp (encOp o) = .ok o := by
  cases o with
  | append fs => simp only [encOp, decOp, frags_back h]
  | delete u d p => simp only [encOp, decOp, frags_back h]
  | overwrite fs s c =>
    obtain ⟨h1, h2, h3⟩ := h
    obtain ⟨h4, h5⟩ := schema_back h2
    subst h3
    simp only [encOp, decOp, frags_back h1, h4, h5]
    rfl
  | createIndex n r =>
    simp only [encOp, decOp, mapE_id (fun i _ => decIdx_encIdx i)]
  | rewrite gs ri =>
    obtain ⟨h1, h2⟩ := h
    have hg : mapE decGroup (gs.map (fun g => (g.old.map encFrag, g.new.map encFrag))) = .ok gs := by
      apply mapE_id
      intro g hg
      simp only [decGroup, frags_back (h2 g hg).1, frags_back (h2 g hg).2]
    have hr : mapE decRewritten (ri.map (fun r => (some (encUuid r.1), some (encUuid r.2)))) = .ok ri := by
      apply mapE_id
      intro r _
      simp only [decRewritten, reqUuid, decUuid_encUuid]
    have hne : (gs.map (fun g => (g.old.map encFrag, g.new.map encFrag))).isEmpty = false := by
      cases gs with
      | nil => exact absurd rfl h1
      | cons a l => rfl
    simp only [encOp, decOp, hne, hg, hr, Bool.not_false, if_true]
  | dataReplacement rs =>
    have : mapE decReplacement (rs.map (fun r => (r.1, some r.2))) = .ok rs := mapE_id (fun r _ => rfl)
    simp only [encOp, decOp, this]
  | merge fs s =>
    obtain ⟨h1, h2⟩ := h
    obtain ⟨h4, h5⟩ := schema_back h2
    simp only [encOp, decOp, frags_back h1, h4, h5]
  | restore v => rfl
  | reserve n => rfl
  | update r u n => simp only [encOp, decOp, frags_back h.1, frags_back h.2]
  | project s =>
    obtain ⟨h4, h5⟩ := schema_back h
    simp only [encOp, decOp, h4, h5]
  | updateConfig u d s f =>
    obtain ⟨h1, h2, h3, h4⟩ := h
    simp only [encOp, decOp, nonEmpty_getD h1, nonEmpty_getD h2, nonEmpty_getD h3, nonEmpty_getD h4]

theorem blob_back (o : Op) (hb : o.isBlobOp) (h : o.Ok) : ∃ p, encBlob o = .ok p ∧ decBlob p = .ok o := by
  cases o with
  | append fs => exact ⟨_, rfl, by simp only [decBlob, frags_back h]⟩
  | overwrite fs s c =>
    obtain ⟨h1, h2, h3⟩ := h
    obtain ⟨h4, h5⟩ := schema_back h2
    subst h3
    exact ⟨_, rfl, by simp only [decBlob, frags_back h1, h4, h5]; rfl⟩
  | _ => cases hb

/-- C19: transactions of the shape `Tx.Ok` come back unchanged.  Missing from the full claim: overwrites
with config updates or without any, schema metadata, known counts of zero, rewrites of nothing, empty
config maps, an empty tag, and blob operations other than append and overwrite. -/
theorem C19_reread_partial (t : Tx) (h : t.Ok) : reread t = .ok t := by
  obtain ⟨ho, hb, ht⟩ := h
  have htag : (if t.tag.getD "" = "" then none else some (t.tag.getD "")) = t.tag := by
    cases hg : t.tag with
    | none => rfl
    | some s => rw [hg] at ht; simp; intro e; exact absurd (e ▸ rfl) ht
  unfold reread encTx
  cases hbo : t.blobs with
  | none =>
    simp only [optE, decTx, op_back t.op ho, htag]
    rw [← hbo]
  | some b =>
    obtain ⟨p, h1, h2⟩ := blob_back b (hb b hbo).1 (hb b hbo).2
    simp only [optE, h1, h2, decTx, op_back t.op ho, htag]
    rw [← hbo]

/-- C19: what the conflict check looks at besides configuration, namely which fragments an operation
touches, survives for every operation that can be read back. -/
theorem C19_fragment_ids (o : Op) :
    match o, decOp (encOp o) with
    | .append fs, .ok (.append gs) => gs.map (·.id) = fs.map (·.id)
    | .delete u d _, .ok (.delete u' d' _) => u'.map (·.id) = u.map (·.id) ∧ d' = d
    | .update r u n, .ok (.update r' u' n') =>
      r' = r ∧ u'.map (·.id) = u.map (·.id) ∧ n'.map (·.id) = n.map (·.id)
    | .rewrite gs _, .ok (.rewrite gs' _) =>
      gs'.flatMap (fun g => g.old.map (·.id)) = gs.flatMap (fun g => g.old.map (·.id))
    | .append _, _ => False
    | .delete _ _ _, _ => False
    | .update _ _ _, _ => False
    | .rewrite _ _, _ => False
    | _, _ => True := by
  have hf : ∀ fs : List Frag, mapE decFrag (fs.map encFrag) = .ok (fs.map normFrag) :=
    fun fs => mapE_ok_iff (fun f _ => decFrag_encFrag f)
  have hi : ∀ fs : List Frag, (fs.map normFrag).map (·.id) = fs.map (·.id) := by
    intro fs; simp [normFrag]
  cases o with
  | append fs => simp only [encOp, decOp, hf, hi]
  | delete u d p => simp only [encOp, decOp, hf, hi, and_self]
  | update r u n => simp only [encOp, decOp, hf, hi, and_self]
  | rewrite gs ri =>
    have hr : mapE decRewritten (ri.map (fun r => (some (encUuid r.1), some (encUuid r.2)))) = .ok ri := by
      apply mapE_id
      intro r _
      simp only [decRewritten, reqUuid, decUuid_encUuid]
    have hg : mapE decGroup (gs.map (fun g => (g.old.map encFrag, g.new.map encFrag))) =
        .ok (gs.map (fun g => ⟨g.old.map normFrag, g.new.map normFrag⟩)) := by
      apply mapE_ok_iff
      intro g _
      simp only [decGroup, hf]
    cases gs with
    | nil => simp [encOp, decOp, mapE, decGroup, hr]
    | cons a l =>
      simp only [encOp, decOp, hr]
      rw [if_pos (by simp), hg]
      simp [List.flatMap_map, hi, normFrag, Function.comp_def]
  | _ => simp only [encOp, decOp] <;> trivial

/-- An overwrite that sets configuration is read back without it, and one that sets none is read back
as setting an empty one (transaction.rs:1221-1225 tests `is_empty` the wrong way round). -/
theorem C19_overwrite_config_violated : ¬ C19_statement ∧
    (∀ fs s c, c ≠ [] → ∀ t, reread ⟨1, "u", .overwrite fs s (some c), none, none⟩ = .ok t →
      ∃ fs' s', t.op = .overwrite fs' s' none) ∧
    reread ⟨1, "u", .overwrite [] ⟨.nil, []⟩ (some [("k", "v")]), none, none⟩ =
      .ok ⟨1, "u", .overwrite [] ⟨.nil, []⟩ none, none, none⟩ ∧
    reread ⟨1, "u", .overwrite [] ⟨.nil, []⟩ none, none, none⟩ =
      .ok ⟨1, "u", .overwrite [] ⟨.nil, []⟩ (some []), none, none⟩ := by
  refine ⟨fun h => ?_, ?_, rfl, rfl⟩
  · have h1 := h ⟨1, "u", .overwrite [] ⟨.nil, []⟩ none, none, none⟩
    have h2 : reread ⟨1, "u", .overwrite [] ⟨.nil, []⟩ none, none, none⟩ =
      .ok ⟨1, "u", .overwrite [] ⟨.nil, []⟩ (some []), none, none⟩ := rfl
    rw [h1] at h2
    simp at h2
  · intro fs s c hc t ht
    simp only [reread, encTx, optE, decTx, encOp, decOp, Option.getD_some] at ht
    cases h1 : mapE decFrag (fs.map encFrag) with
    | error e => simp [h1] at ht
    | ok fs' =>
      cases h2 : unflatten (flatten s.fields) with
      | error e => simp [h1, h2] at ht
      | ok s' =>
        simp only [h1, h2, Except.ok.injEq] at ht
        subst ht
        refine ⟨fs', ⟨s', []⟩, ?_⟩
        cases c with
        | nil => exact absurd rfl hc
        | cons a l => rfl

/-- Consequence for the commit protocol (transaction.rs:388-530 as modelled in `Verif.Txn`): two writers
setting the same key conflict, but not when the first one's transaction is read from its file. -/
theorem C19_lost_conflict_violated : ∃ (fs : List Txn.Frag) (s : Txn.Schema) (c : Txn.Cfg),
    Txn.Op.conflicts (.updateConfig (some c) none none none) (.overwrite fs s (some c)) = true ∧
    Txn.Op.conflicts (.updateConfig (some c) none none none) (.overwrite fs s none) = false :=
  ⟨[], ⟨[], []⟩, [(1, 2)], by decide, by decide⟩

/-- Further disagreements: schema metadata is dropped, a rewrite of nothing comes back as one empty
group, an empty tag as none, a blob delete panics. -/
theorem C19_other_violated :
    reread ⟨1, "u", .project ⟨.nil, [("k", "v")]⟩, none, none⟩ = .ok ⟨1, "u", .project ⟨.nil, []⟩, none, none⟩ ∧
    reread ⟨1, "u", .rewrite [] [], none, none⟩ = .ok ⟨1, "u", .rewrite [⟨[], []⟩] [], none, none⟩ ∧
    reread ⟨1, "u", .restore 3, none, some ""⟩ = .ok ⟨1, "u", .restore 3, none, none⟩ ∧
    reread ⟨1, "u", .restore 3, some (.delete [] [] ""), none⟩ = .error .panic :=
  ⟨rfl, rfl, rfl, rfl⟩

def xfrag (id : Nat) : Frag := ⟨id, [⟨"a.lance", [0], [0], 2, 0⟩], some ⟨1, 2, .array, some 4⟩, none, some 9⟩

theorem xfrag_ok (id : Nat) : (xfrag id).CountsNonzero :=
  ⟨by simp [xfrag], by rintro d hd; cases hd; simp⟩

example : (⟨7, "u", .merge [xfrag 1, xfrag 2] ⟨xforest, []⟩, some (.append [xfrag 3]), some "t"⟩ : Tx).Ok := by
  refine ⟨⟨?_, xforest_ok, rfl⟩, ?_, by decide⟩
  · intro f hf
    rcases List.mem_cons.1 hf with h | h
    · exact h ▸ xfrag_ok 1
    · exact (List.mem_singleton.1 h) ▸ xfrag_ok 2
  · intro b hb
    cases hb
    exact ⟨trivial, fun f hf => (List.mem_singleton.1 hf) ▸ xfrag_ok 3⟩

/-! ## C52: manifests -/

/-- C52 as claimed: a manifest written and read back is the same. -/
def C52_statement : Prop := ∀ m : Manifest, m.schema.fields.Ok → decManifest (encManifest m) = .ok m

/-- A manifest as a commit builds it. -/
def Manifest.Ok (m : Manifest) : Prop :=
  m.schema.fields.Ok ∧ m.localSchema = ⟨m.schema.fields.retain .default, m.schema.md⟩ ∧
    (∀ f ∈ m.frags, f.CountsNonzero) ∧ m.nanos < 9223372036854775808 * 1000000000 ∧
    m.tag ≠ some "" ∧ m.txFile ≠ some "" ∧ m.blobVersion ≠ some 0 ∧
    (m.rflags.testBit 1 = true → ∀ f ∈ m.frags, f.ids.isSome = true)

theorem decTime_encTime (n : Nat) (h : n < 9223372036854775808 * 1000000000) : decTime (encTime n) = n := by
  unfold encTime
  split
  · subst_vars; rfl
  · unfold decTime toI64
    have hs : (n - n % 1000000000) / 1000000000 % 18446744073709551616 = n / 1000000000 := by omega
    rw [hs, if_pos (by omega)]
    simp only
    omega

/-- C52: a manifest of the shape `Manifest.Ok` comes back unchanged.  Missing from the full claim: known
counts of zero, an empty tag or transaction file name, blob version zero, and a `local_schema` that is
not derived from the schema. -/
theorem C52_manifest_partial (m : Manifest) (h : m.Ok) : decManifest (encManifest m) = .ok m := by
  obtain ⟨hs, hl, hf, hn, ht, hx, hb, hi⟩ := h
  have htag : (if m.tag.getD "" = "" then none else some (m.tag.getD "")) = m.tag := by
    cases hg : m.tag with
    | none => rfl
    | some s => rw [hg] at ht; simp; intro e; exact absurd (e ▸ rfl) ht
  have htx : (if m.txFile.getD "" = "" then none else some (m.txFile.getD "")) = m.txFile := by
    cases hg : m.txFile with
    | none => rfl
    | some s => rw [hg] at hx; simp; intro e; exact absurd (e ▸ rfl) hx
  have hbv : (if m.blobVersion.getD 0 = 0 then none else some (m.blobVersion.getD 0)) = m.blobVersion := by
    cases hg : m.blobVersion with
    | none => rfl
    | some s => rw [hg] at hb; simp; intro e; exact absurd (e ▸ rfl) hb
  have hflag : (m.rflags.testBit 1 && !m.frags.all (fun f => f.ids.isSome)) = false := by
    cases hr : m.rflags.testBit 1 with
    | false => rfl
    | true => simpa using hi hr
  unfold decManifest encManifest
  simp only [frags_back hf, hflag, decFormat, C51_schema_tree _ hs, decTime_encTime _ hn, htag, htx, hbv]
  rw [if_neg (by simp)]
  rw [← hl]

/-- C52: the row id flag is checked on reading: a stored manifest that claims stable row ids but has a
fragment without row ids is rejected. -/
theorem C52_flag_checked (m : Manifest) (hr : m.rflags.testBit 1 = true) (f : Frag) (hf : f ∈ m.frags)
    (hi : f.ids = none) : decManifest (encManifest m) = .error .internal := by
  have hfs : mapE decFrag (m.frags.map encFrag) = .ok (m.frags.map normFrag) :=
    mapE_ok_iff (fun f _ => decFrag_encFrag f)
  unfold decManifest encManifest
  simp only [hfs, hr]
  rw [if_pos]
  simp only [Bool.true_and, Bool.not_eq_true', List.all_eq_false, List.mem_map]
  exact ⟨_, ⟨f, hf, rfl⟩, by simp [normFrag, hi]⟩

/-- C52: a manifest from before the storage format was recorded gets the version all its data files
agree on. -/
theorem C52_inferred_format (frags : List Frag) (wf : Nat) (v : String) (f : Frag) (hf : f ∈ frags)
    (hfile : f.files ≠ []) :
    decFormat none frags wf = .ok ("lance", v) ↔
      ∀ g ∈ frags, ∀ x ∈ g.files, versionStr x.major x.minor = .ok v := by
  have hsame : ∀ (l : List File) (v : String), sameVersion v l = .ok () ↔
      ∀ x ∈ l, versionStr x.major x.minor = .ok v := by
    intro l v
    induction l with
    | nil => simp [sameVersion]
    | cons x xs ih =>
      unfold sameVersion
      cases hv : versionStr x.major x.minor with
      | error e => simp [hv]
      | ok w =>
        by_cases hw : v = w
        · subst hw; simp [hv, ih]
        · simp only [if_neg hw, List.mem_cons, forall_eq_or_imp, hv, Except.ok.injEq]
          constructor
          · intro h; cases h
          · intro h; exact absurd h.1.symm hw
  have hall : (∀ g ∈ frags, ∀ x ∈ g.files, versionStr x.major x.minor = .ok v) ↔
      ∀ x ∈ frags.flatMap (·.files), versionStr x.major x.minor = .ok v := by
    constructor
    · intro h x hx
      obtain ⟨g, hg, hx⟩ := List.mem_flatMap.1 hx
      exact h g hg x hx
    · intro h g hg x hx
      exact h x (List.mem_flatMap.2 ⟨g, hg, hx⟩)
  rw [hall]
  unfold decFormat inferVersion
  cases hfl : frags.flatMap (·.files) with
  | nil =>
    cases hff : f.files with
    | nil => exact absurd hff hfile
    | cons x xs =>
      have : x ∈ frags.flatMap (·.files) := List.mem_flatMap.2 ⟨f, hf, by rw [hff]; exact List.mem_cons_self ..⟩
      rw [hfl] at this
      cases this
  | cons x xs =>
    cases hv : versionStr x.major x.minor with
    | error e =>
      simp only [hv, reduceCtorEq, false_iff]
      intro h
      have := h x (List.mem_cons_self ..)
      rw [hv] at this
      cases this
    | ok w =>
      simp only [hv]
      cases hsv : sameVersion w (x :: xs) with
      | error e =>
        simp only [hsv, reduceCtorEq, false_iff]
        intro h
        have h1 := h x (List.mem_cons_self ..)
        rw [hv] at h1
        have h2 : w = v := Except.ok.inj h1
        rw [(hsame _ _).2 (h2 ▸ h)] at hsv
        cases hsv
      | ok u =>
        simp only [hsv, Except.ok.injEq, Prod.mk.injEq, true_and]
        constructor
        · intro e; subst e
          exact (hsame _ _).1 hsv
        · intro h
          have h1 := h x (List.mem_cons_self ..)
          rw [hv] at h1
          exact Except.ok.inj h1

/-- C52: a dataset whose data files were all written with one file version, recorded before formats were
kept in the manifest, gets that version (`Stable` and `Next` as what they stand for), which can be parsed
again; mixed versions are refused; an empty one gets 2.0 if the old v2 flag is set and 0.1 otherwise. -/
theorem C52_format_of_written (frags : List Frag) (wf : Nat) :
    (∀ v : FileVer, (∀ g ∈ frags, ∀ x ∈ g.files, (x.major, x.minor) = v.numbers) →
      (∃ f ∈ frags, f.files ≠ []) →
      decFormat none frags wf = .ok ("lance", v.resolve.show) ∧
      FileVer.parse v.resolve.show = .ok v.resolve) ∧
    (∀ v w : FileVer, v.resolve ≠ w.resolve →
      (∃ g ∈ frags, ∃ x ∈ g.files, (x.major, x.minor) = v.numbers) →
      (∃ g ∈ frags, ∃ x ∈ g.files, (x.major, x.minor) = w.numbers) →
      ∀ r, decFormat none frags wf ≠ .ok r) ∧
    ((∀ f ∈ frags, f.files = []) →
      decFormat none frags wf = .ok ("lance", if wf.testBit 2 then "2.0" else "0.1")) := by
  have hnum : ∀ (v : FileVer) (x : File), (x.major, x.minor) = v.numbers →
      versionStr x.major x.minor = .ok v.resolve.show := by
    intro v x hx
    obtain ⟨h1, h2⟩ := Prod.mk.inj hx
    rw [h1, h2]
    cases v <;> rfl
  refine ⟨fun v hv hex => ?_, fun v w hvw hv hw r hr => ?_, fun he => ?_⟩
  · obtain ⟨f, hf, hne⟩ := hex
    refine ⟨(C52_inferred_format frags wf _ f hf hne).2 fun g hg x hx => hnum v x (hv g hg x hx), ?_⟩
    cases v <;> rfl
  · obtain ⟨g, hg, x, hx, ex⟩ := hv
    obtain ⟨g', hg', x', hx', ex'⟩ := hw
    have hlance : r.1 = "lance" := by
      unfold decFormat at hr
      revert hr
      dsimp only
      cases inferVersion frags with
      | error e => intro hr; cases hr
      | ok o =>
        cases o with
        | none => intro hr; cases hr; rfl
        | some s => intro hr; cases hr; rfl
    obtain ⟨a, b⟩ := r
    subst hlance
    have h := (C52_inferred_format frags wf b g hg (List.ne_nil_of_mem hx)).1 hr
    have h1 := h g hg x hx
    have h2 := h g' hg' x' hx'
    rw [hnum v x ex] at h1
    rw [hnum w x' ex'] at h2
    have : v.resolve.show = w.resolve.show := (Except.ok.inj h1).trans (Except.ok.inj h2).symm
    revert this hvw
    cases v <;> cases w <;> decide
  · have : frags.flatMap (·.files) = [] := List.flatMap_eq_nil_iff.2 he
    simp only [decFormat, inferVersion, this]
    by_cases hb : wf.testBit 2 = true
    · simp [hb, FileVer.resolve, FileVer.show]
    · simp [hb, FileVer.resolve, FileVer.show]

/-- `"next"` is printed but not parsed. -/
theorem C52_version_text_violated : ∃ v : FileVer, ∀ w, FileVer.parse v.show ≠ .ok w :=
  ⟨.next, fun w h => by
    have : FileVer.parse FileVer.next.show = .error .invalid := rfl
    rw [this] at h; cases h⟩

def xmanifest : Manifest where
  schema := ⟨xforest, [("m", "1")]⟩
  localSchema := ⟨.nil, [("m", "1")]⟩
  version := 4
  writer := some ("lance", "0.1")
  frags := [xfrag 1, xfrag 5]
  aux := 0
  indexSection := some 12
  nanos := 1700000000123456789
  tag := none
  rflags := 1
  wflags := 1
  maxFrag := 5
  txFile := some "3-u.txn"
  nextRow := 0
  format := ("lance", "2.0")
  config := [("c", "d")]
  blobVersion := none

theorem xmanifest_ok : xmanifest.Ok := by
  refine ⟨xforest_ok, rfl, ?_, by decide, by decide, by decide, by decide, ?_⟩
  · intro f hf
    rcases List.mem_cons.1 hf with h | h
    · exact h ▸ xfrag_ok 1
    · exact (List.mem_singleton.1 h) ▸ xfrag_ok 5
  · intro h
    exact absurd h (by decide)

example : decFormat none [xfrag 1, xfrag 5] 0 = .ok ("lance", "2.0") := by rfl

/-- Updating the schema metadata changes `schema` but not `local_schema`, which scans use for their
output: the committing process and one that reads the manifest see different schemas. -/
theorem C52_schema_metadata_violated : ¬ C52_statement ∧ ∃ (m : Manifest) (md : Md) (r : Manifest),
    m.Ok ∧ decManifest (encManifest (m.updateSchemaMd md)) = .ok r ∧
      r.localSchema ≠ (m.updateSchemaMd md).localSchema := by
  have h : ∃ r, decManifest (encManifest (xmanifest.updateSchemaMd [])) = .ok r ∧
      r.localSchema ≠ (xmanifest.updateSchemaMd []).localSchema := ⟨_, rfl, by decide⟩
  refine ⟨fun hs => ?_, xmanifest, [], ?_⟩
  · obtain ⟨r, h1, h2⟩ := h
    rw [hs _ xforest_ok] at h1
    exact h2 ((Except.ok.inj h1) ▸ rfl)
  · obtain ⟨r, h1, h2⟩ := h
    exact ⟨r, xmanifest_ok, h1, h2⟩

end Verif.Stored
