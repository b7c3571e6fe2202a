import Verif.Txn.Lineage
/-!
# Reading through the caches of a session

Source: rust/lance-core/src/cache.rs (`FileMetadataCache`), rust/lance/src/index/cache.rs (`IndexCache`),
rust/lance/src/session.rs, and the places that use them for something that belongs to a version of the
dataset: rust/lance/src/dataset/rowids.rs, rust/lance/src/index/prefilter.rs, rust/lance/src/index.rs,
rust/lance/src/io/commit.rs, rust/lance/src/dataset/fragment.rs.

All datasets opened with one session share its caches.  Entries are added when something is looked up,
can disappear at any moment (the cache is bounded), and are never replaced because something was
committed.  What an entry stands for is decided by its key alone; the model has one map for each kind of
key.  The dataset itself, its versions and its writers are those of `Verif.Txn.System`.

Not modelled: file metadata and pages of indices, whose keys are paths and uuids that are never used for
two different files; the sizes of entries.
-/
namespace Verif.Session
open Verif.Txn

/-- The caches of a session, for one base path. -/
structure Cache where
  /-- rowids.rs:22 `{base}/{fragment id}/row_ids` -/
  seqs : Nat → Option (List Nat)
  /-- rowids.rs:76-79 `{base}/row_ids/{version}`: fragment ids with their sequences -/
  index : Nat → Option (List (Nat × List Nat))
  /-- prefilter.rs:126-128 `{base}/row_id_mask{version}`: the ids of the rows that are not deleted -/
  mask : Nat → Option (List Nat)
  /-- lance-table/src/io/deletion.rs:36-46 `{base}/_deletions/{fragment id}-{read version}-{id}` -/
  dels : Nat → Nat → Nat → Option (List Nat)
  /-- lance/src/index/cache.rs, `{base}:{version}`: the indices of a version -/
  ixs : Nat → Option (List Idx)
  /-- io/commit.rs:72-76 `{base}/_transactions/{version}.txn` -/
  txns : Nat → Option Op

/-- The caches of a new session. -/
def Cache.empty : Cache where
  seqs := fun _ => none
  index := fun _ => none
  mask := fun _ => none
  dels := fun _ _ _ => none
  ixs := fun _ => none
  txns := fun _ => none

/-- cache.rs:144-156 `insert`: the new value replaces the old one. -/
def put {β : Type} (m : Nat → Option β) (k : Nat) (x : β) : Nat → Option β :=
  fun i => if i = k then some x else m i

/-- cache.rs:172-192 `get_or_insert`: the value that is returned. -/
def getOr {β : Type} (cached : Option β) (load : Option β) : Option β :=
  match cached with
  | some x => some x
  | none => load

/-- rowids.rs:16-53 `load_row_id_sequence`; a fragment without row ids is an error. -/
def readSeq (c : Cache) (f : Frag) : Option (List Nat) :=
  match f.rowIds with
  | none => none
  | some l => getOr (c.seqs f.id) (some l)

/-- fragment.rs:949-975 `load_deletion_vector`: no file, or the offsets. -/
def readDel (c : Cache) (f : Frag) : Option (List Nat) :=
  match f.del with
  | none => none
  | some d => getOr (c.dels f.id d.readVersion d.id) (some d.offs)

/-- rowids.rs:58-69 `load_row_id_sequences`; the order of the pairs, which is not fixed there, is that of
the fragments here.  The fragments are read one after the other while the cache changes: `pick f` is the
cache when fragment `f` is read. -/
def readSeqs (pick : Frag → Cache) : List Frag → Option (List (Nat × List Nat))
  | [] => some []
  | f :: fs =>
    match readSeq (pick f) f, readSeqs pick fs with
    | some l, some r => some ((f.id, l) :: r)
    | _, _ => none

/-- rowids.rs:71-99 `get_row_id_index` of version `v` with manifest `m`; `none` is an error or no stable
row ids. -/
def readIndex (c : Cache) (v : Nat) (m : Manifest) : Option (List (Nat × List Nat)) :=
  if m.usesStable then getOr (c.index v) (readSeqs (fun _ => c) m.frags) else none

/-- The sequence without the given positions (lance-table/src/rowids.rs:156-184 `mask`, which is proved
about in `Verif.RowIds`). -/
def dropAt (offs : List Nat) (l : List Nat) : List Nat :=
  (l.zipIdx.filter (fun p => !offs.contains p.2)).map (·.1)

/-- prefilter.rs:158-164. -/
def keepRows (del : Option (List Nat)) (l : List Nat) : List Nat :=
  match del with
  | some offs => dropAt offs l
  | none => l

/-- prefilter.rs:132-145 `load_row_ids_and_deletions` and 153-171, the allow list; `pick f` is the cache
when the sequence of `f` is read, `pickD f` when its deletions are. -/
def readRows (pick pickD : Frag → Cache) : List Frag → Option (List Nat)
  | [] => some []
  | f :: fs =>
    match readSeq (pick f) f, readRows pick pickD fs with
    | some l, some r =>
      some (keepRows (readDel (pickD f) f) l ++ r)
    | _, _ => none

/-- prefilter.rs:121-179 `do_create_deletion_mask_row_id`. -/
def readMask (c : Cache) (v : Nat) (m : Manifest) : Option (List Nat) :=
  getOr (c.mask v) (readRows (fun _ => c) (fun _ => c) m.frags)

/-- index.rs:401-422 `load_indices`. -/
def readIxs (c : Cache) (v : Nat) (e : Entry) : Option (List Idx) :=
  getOr (c.ixs v) (some e.ix)

/-- io/commit.rs:78-105 `read_dataset_transaction_file`. -/
def readTxn (c : Cache) (v : Nat) (e : Entry) : Option Op :=
  getOr (c.txns v) (some e.job.tx.op.stored)

/-- An entry is kept or has been evicted. -/
def Kept {β : Type} (old new : Option β) : Prop := new = old ∨ new = none

structure Sub (c' c : Cache) : Prop where
  seqs : ∀ k, Kept (c.seqs k) (c'.seqs k)
  index : ∀ k, Kept (c.index k) (c'.index k)
  mask : ∀ k, Kept (c.mask k) (c'.mask k)
  dels : ∀ k v i, Kept (c.dels k v i) (c'.dels k v i)
  ixs : ∀ k, Kept (c.ixs k) (c'.ixs k)
  txns : ∀ k, Kept (c.txns k) (c'.txns k)

/-- A dataset and a session.  `past` is a ghost: all the contents the cache has had. -/
structure St where
  sys : Sys
  cache : Cache
  past : List Cache

def St.next (st : St) (t : Sys) (c : Cache) : St := ⟨t, c, c :: st.past⟩

def St.init : St := ⟨Sys.init, Cache.empty, [Cache.empty]⟩

/-- Steps.  A value is inserted some time after the lookup that missed, so loading does not require that
there is no entry.  `drops`: the directory of the dataset may be removed and a dataset made anew at the
same path. -/
inductive SStep (drops : Bool) : St → St → Prop
  /-- A writer or cleaner, of this session or another one, takes a step. -/
  | sys (st : St) {t : Sys} (h : Step st.sys t) : SStep drops st (st.next t st.cache)
  /-- io/commit.rs:193-197 and 826-832: a writer of this session has committed as version `v`. -/
  | own (st : St) {t : Sys} (h : Step st.sys t) (w : Nat) (j : Job) (v : Nat)
      (hold : st.sys.ws w ≠ .done j v) (hnew : t.ws w = .done j v) :
      SStep drops st (st.next t { st.cache with txns := put st.cache.txns v j.tx.op })
  | seq (st : St) (v : Nat) (e : Entry) (f : Frag) (l : List Nat)
      (he : st.sys.hist.look v = some e) (hf : f ∈ e.m.frags) (hl : f.rowIds = some l) :
      SStep drops st (st.next st.sys { st.cache with seqs := put st.cache.seqs f.id l })
  | del (st : St) (v : Nat) (e : Entry) (f : Frag) (d : DelFile)
      (he : st.sys.hist.look v = some e) (hf : f ∈ e.m.frags) (hd : f.del = some d) :
      SStep drops st (st.next st.sys { st.cache with dels := fun i r k =>
        if i = f.id ∧ r = d.readVersion ∧ k = d.id then some d.offs else st.cache.dels i r k })
  | index (st : St) (v : Nat) (e : Entry) (pick : Frag → Cache) (x : List (Nat × List Nat))
      (he : st.sys.hist.look v = some e) (hs : e.m.usesStable = true)
      (hp : ∀ f, pick f ∈ st.past) (hx : readSeqs pick e.m.frags = some x) :
      SStep drops st (st.next st.sys { st.cache with index := put st.cache.index v x })
  | mask (st : St) (v : Nat) (e : Entry) (pick pickD : Frag → Cache) (x : List Nat)
      (he : st.sys.hist.look v = some e)
      (hp : ∀ f, pick f ∈ st.past) (hpd : ∀ f, pickD f ∈ st.past) (hx : readRows pick pickD e.m.frags = some x) :
      SStep drops st (st.next st.sys { st.cache with mask := put st.cache.mask v x })
  | ixs (st : St) (v : Nat) (e : Entry) (he : st.sys.hist.look v = some e) :
      SStep drops st (st.next st.sys { st.cache with ixs := put st.cache.ixs v e.ix })
  | txn (st : St) (v : Nat) (e : Entry) (he : st.sys.hist.look v = some e) :
      SStep drops st (st.next st.sys { st.cache with txns := put st.cache.txns v e.job.tx.op.stored })
  /-- Eviction. -/
  | evict (st : St) (c : Cache) (h : Sub c st.cache) : SStep drops st (st.next st.sys c)
  /-- Removal of the whole dataset. -/
  | drop (st : St) (h : drops = true) : SStep drops st (st.next Sys.init st.cache)

inductive SReach (drops : Bool) : St → Prop
  | init : SReach drops St.init
  | step {a b : St} : SReach drops a → SStep drops a b → SReach drops b

end Verif.Session
