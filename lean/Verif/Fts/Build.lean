import Verif.Fts.Wand
import Verif.Common.Sort
import Verif.Common.SMap
/-!
# Full text search: building, updating and remapping the index

Models `rust/lance-index/src/scalar/inverted/builder.rs` (60-672) and the parts of `index.rs` it uses (318-955).  Token texts are
natural numbers.  The score of a token in a document is a function `wt` of the number of documents, the total number of tokens, the
length of the posting list, the number of tokens of the document and the frequency.  Hash maps are maps with sorted keys; where the code
iterates over one, the order is given from outside.  Each entry carries its own positions, `PositionBuilder`'s flat representation is not
modelled.  Reading back a written file returns what was written.
-/
namespace Verif.Fts

abbrev Tok := Nat

/-- A document: its row id and its tokens with their positions, as the tokenizer returns them. -/
structure Doc where
  row : Nat
  toks : List (Tok × Int)
deriving DecidableEq, Repr

/-- index.rs:866-873 `DocSet`. -/
structure DocSet where
  count : SMap Nat
  total : Nat

/-- index.rs:951-954 `add`. -/
def DocSet.add (d : DocSet) (row n : Nat) : DocSet := ⟨SMap.insert row n d.count, d.total + n⟩

/-- index.rs:946-949 `num_tokens`. -/
def DocSet.numTokens (d : DocSet) (row : Nat) : Nat := (SMap.get row d.count).getD 0

/-- index.rs:909-929 `load`: the total is computed anew. -/
def DocSet.load (count : SMap Nat) : DocSet := ⟨count, (count.map (·.2)).sum⟩

/-- index.rs:931-944 `remap`; the mapping in the order of the iteration. -/
def DocSet.remap (m : List (Nat × Option Nat)) (d : DocSet) : DocSet :=
  m.foldl (fun d (k, v) =>
    match v with
    | some v =>
      match SMap.get k d.count with
      | some n => { d with count := SMap.insert v n (SMap.erase k d.count) }
      | none => d
    | none => { d with count := SMap.erase k d.count }) d

/-- index.rs:320-325 `TokenSet`. -/
structure TokenSet where
  map : SMap Nat
  nextId : Nat

/-- index.rs:376-388 `add`. -/
def TokenSet.add (s : TokenSet) (t : Tok) : TokenSet :=
  match SMap.get t s.map with
  | some id => { s with nextId := if id = s.nextId then s.nextId + 1 else s.nextId }
  | none => ⟨SMap.insert t s.nextId s.map, s.nextId + 1⟩

/-- index.rs:353-374 `load`. -/
def TokenSet.load (m : SMap Nat) : TokenSet := ⟨m, (m.map (·.2)).foldl (fun n id => max n (id + 1)) 0⟩

/-- A loaded index (index.rs:72-79, 399-409): `file` is the file of the posting lists, `offsets` and `maxScores` are its metadata. -/
structure Index where
  tokens : TokenSet
  file : List Entry
  offsets : List Nat
  maxScores : List Nat
  docs : DocSet

/-- index.rs:466-474 `posting_len`. -/
def Index.postingLen (x : Index) (id : Nat) : Nat := (x.offsets[id + 1]?).getD x.file.length - (x.offsets[id]?).getD 0

/-- index.rs:476-495 `posting_batch`. -/
def Index.batch (x : Index) (id : Nat) : List Entry := (x.file.drop ((x.offsets[id]?).getD 0)).take (x.postingLen id)

/-! ## Posting lists -/

/-- index.rs:680-686 `PostingListBuilder::add`. -/
def entry (withPos : Bool) (row : Nat) (ps : List Int) : Entry := ⟨row, ps.length, if withPos then ps else []⟩

/-- index.rs:688-728 `remap`. -/
def remapList (m : List (Nat × Option Nat)) : List Entry → List Entry
  | [] => []
  | e :: es =>
    match (m.find? (fun kv => kv.1 == e.row)).map (·.2) with
    | some (some r) => { e with row := r } :: remapList m es
    | some none => remapList m es
    | none => e :: remapList m es

/-- index.rs:730-780 `to_batch`: by row id.  With distinct row ids the unstable sort has one result. -/
def toBatch (l : List Entry) : List Entry := sortBy Entry.row l

/-- index.rs:755-768: the largest score in the list. -/
def maxScore (wt : Nat → Nat → Nat → Nat → Nat → Nat) (docs : DocSet) (l : List Entry) : Nat :=
  l.foldl (fun m e =>
    let s := wt docs.count.length docs.total l.length (docs.numTokens e.row) e.freq
    if m < s then s else m) 0

/-! ## Workers -/

/-- builder.rs:405-417 `IndexWorker`: lists in memory, the file on disk and where in it the lists of a token are. -/
structure Worker where
  lists : SMap (List Entry)
  file : List Entry
  offset : Nat
  offs : SMap (List (Nat × Nat))

/-- builder.rs:450-458: the positions of one token. -/
def occ (t : Tok) (toks : List (Tok × Int)) : List Int := (toks.filter (fun x => x.1 == t)).map (·.2)

/-- builder.rs:449-485 `add`, without the flush.  The order of the tokens of one document does not matter. -/
def Worker.add (withPos : Bool) (w : Worker) (row : Nat) (toks : List (Tok × Int)) : Worker :=
  (toks.map (·.1)).eraseDups.foldl (fun w t =>
    { w with lists := SMap.insert t (((SMap.get t w.lists).getD []) ++ [entry withPos row (occ t toks)]) w.lists }) w

/-- builder.rs:524-541 `flush_posting_list`. -/
def Worker.flushOne (w : Worker) (t : Tok) : Worker :=
  match SMap.get t w.lists with
  | none => w
  | some l =>
    let b := toBatch l
    { lists := SMap.erase t w.lists, file := w.file ++ b, offset := w.offset + b.length,
      offs := SMap.insert t (((SMap.get t w.offs).getD []) ++ [(w.offset, b.length)]) w.offs }

/-- What a worker does: it receives a document, or flushes some lists (builder.rs:488-522; which ones depends on sizes, any are
allowed here). -/
inductive Ev where
  | add (row : Nat) (toks : List (Tok × Int))
  | flush (keys : List Tok)

def Worker.step (withPos : Bool) (w : Worker) : Ev → Worker
  | .add row toks => w.add withPos row toks
  | .flush keys => keys.foldl Worker.flushOne w

/-- builder.rs:419-443 `new`. -/
def Worker.init : Worker := ⟨[], [], 0, []⟩

/-- What the worker of a shard has at the end (builder.rs:543-557 `into_reader`): `last` is the order of the last flush. -/
def worker (withPos : Bool) (evs : List Ev) (last : List Tok) : Worker :=
  last.foldl Worker.flushOne (evs.foldl (Worker.step withPos) Worker.init)

/-! ## Update -/

/-- What is not determined in an update: the number of shards, the hash function, what each worker receives and when it flushes, the
order of its last flush, the order in which document lengths arrive, the order in which lists arrive to be written. -/
structure Sched where
  shards : Nat
  hash : Tok → Nat
  events : Nat → List Ev
  last : Nat → List Tok
  lengths : List (Nat × Nat)
  merged : List (Nat × Tok)

/-- builder.rs:118-122, 186-189: the shard of a token. -/
def Sched.shard (s : Sched) (t : Tok) : Nat := s.hash t % s.shards

/-- builder.rs:176-215: what a shard is sent for the documents, in their order. -/
def messages (s : Sched) (shard : Nat) : List Doc → List (Nat × List (Tok × Int))
  | [] => []
  | d :: ds =>
    let ts := d.toks.filter (fun x => s.shard x.1 == shard)
    if ts.isEmpty then messages s shard ds else (d.row, ts) :: messages s shard ds

/-- What a worker receives, in order. -/
def received : List Ev → List (Nat × List (Tok × Int))
  | [] => []
  | .add row toks :: evs => (row, toks) :: received evs
  | .flush _ :: evs => received evs

/-- builder.rs:116-123: the known tokens of a shard. -/
def existing (s : Sched) (x : Index) (shard : Nat) : SMap Nat := x.tokens.map.filter (fun kv => s.shard kv.1 == shard)

def Sched.reader (s : Sched) (withPos : Bool) (shard : Nat) : Worker := worker withPos (s.events shard) (s.last shard)

/-- builder.rs:618-624: the tokens of a shard, new and known. -/
def readerTokens (s : Sched) (withPos : Bool) (x : Index) (shard : Nat) : List Tok :=
  let w := s.reader withPos shard
  SMap.keys w.offs ++ (SMap.keys (existing s x shard)).filter (fun t => (SMap.get t w.offs).isNone)

/-- builder.rs:630-660: the list of a token, from the new data and from the index. -/
def readToken (s : Sched) (withPos : Bool) (x : Index) (shard : Nat) (t : Tok) : List Entry :=
  let w := s.reader withPos shard
  toBatch ((((SMap.get t w.offs).getD []).flatMap (fun on => (w.file.drop on.1).take on.2)) ++
    (match SMap.get t (existing s x shard) with
      | some id => x.batch id
      | none => []))

/-- The schedule is one of this update. -/
structure Sched.Valid (s : Sched) (withPos : Bool) (x : Index) (docs : List Doc) : Prop where
  shards : 0 < s.shards
  /-- every worker receives its messages, in some order -/
  events : ∀ k, (received (s.events k)).Perm (messages s k docs)
  /-- the last flush writes everything -/
  last : ∀ k, (s.last k).Perm (SMap.keys ((s.events k).foldl (Worker.step withPos) Worker.init).lists)
  lengths : s.lengths.Perm (docs.map (fun d => (d.row, d.toks.length)))
  merged : s.merged.Perm ((List.range s.shards).flatMap (fun k => (readerTokens s withPos x k).map (fun t => (k, t))))

/-- builder.rs:320-372 (also 277-300): writing lists, with where each begins and its largest score. -/
def writeLists (ls : List (List Entry × Nat)) : List Nat × List Nat × List Entry :=
  ls.foldl (fun (o, m, f) (b, s) => (o ++ [f.length], m ++ [s], f ++ b)) ([], [], [])

/-- builder.rs:99-108, 311-318 `update`, and the result loaded (index.rs:246-298). -/
def update (wt : Nat → Nat → Nat → Nat → Nat → Nat) (withPos : Bool) (s : Sched) (x : Index) : Index :=
  let docs := s.lengths.foldl (fun d (r, n) => d.add r n) x.docs
  let lists := s.merged.map (fun (k, t) => (t, readToken s withPos x k t))
  let tokens := lists.foldl (fun (ts : TokenSet) tl => ts.add tl.1) ⟨[], 0⟩
  let (offsets, maxScores, file) := writeLists (lists.map (fun tl => (tl.2, maxScore wt docs tl.2)))
  { tokens := TokenSet.load tokens.map, file := file, offsets := offsets, maxScores := maxScores, docs := DocSet.load docs.count }

/-- builder.rs:259-309 `remap`, and the result loaded. -/
def remap (wt : Nat → Nat → Nat → Nat → Nat → Nat) (m : List (Nat × Option Nat)) (x : Index) : Index :=
  let docs := x.docs.remap m
  let lists := (List.range x.tokens.nextId).map (fun id => toBatch (remapList m (x.batch id)))
  let (offsets, maxScores, file) := writeLists (lists.map (fun l => (l, maxScore wt docs l)))
  { tokens := TokenSet.load x.tokens.map, file := file, offsets := offsets, maxScores := maxScores, docs := DocSet.load docs.count }

/-- An index that does not exist yet: an update of it is the creation (builder.rs:74-82 `new`). -/
def emptyIndex : Index := ⟨⟨[], 0⟩, [], [], [], ⟨[], 0⟩⟩

/-! ## Queries -/

/-- The first of equal neighbours. -/
def dedupAdj : List Nat → List Nat
  | a :: b :: l => if a = b then dedupAdj (b :: l) else a :: dedupAdj (b :: l)
  | l => l

/-- index.rs:150-166: the posting lists of the query; `positions` are `enumerate`. -/
def Index.postings (x : Index) (ids : List Nat) : List Posting :=
  ids.zipIdx.map (fun (id, i) => { token := id, qpos := (i : Int), list := x.batch id, ub := (x.maxScores[id]?).getD 0 })

/-- index.rs:168-175: what a token contributes to the score of a document. -/
def Index.contrib (wt : Nat → Nat → Nat → Nat → Nat → Nat) (x : Index) (len row freq : Nat) : Nat :=
  wt x.docs.count.length x.docs.total len (x.docs.numTokens row) freq

/-- index.rs:111-178 `full_text_search` and `bm25_search`, for the tokens of the query.  `limit = none` is `usize::MAX`, a number no
list of candidates reaches.  The error of a phrase query of an index without positions is `Except.error`. -/
def Index.fullTextSearch (wt : Nat → Nat → Nat → Nat → Nat → Nat) (withPos : Bool) (lib : Lib) (mask : Nat → Bool) (phrase : Bool)
    (limit : Nat) (scale : Nat → Nat) (query : List Tok) (x : Index) : Except Unit (Option (List (Nat × Nat))) :=
  let ids := query.filterMap (fun t => SMap.get t x.tokens.map)
  if phrase then
    if !withPos then .error ()
    else if ids.length ≠ query.length then .ok (some [])
    else .ok (search lib mask (x.contrib wt) true limit scale (x.postings ids))
  else .ok (search lib mask (x.contrib wt) false limit scale (x.postings (dedupAdj (sortBy id ids))))

end Verif.Fts
