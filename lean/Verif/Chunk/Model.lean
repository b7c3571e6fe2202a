/-!
# Re-batching of streams and cutting into files

Models `rust/lance-datafusion/src/chunker.rs` (16-198) and the writing loop of
`rust/lance/src/dataset/write.rs` (233-293).  A record batch is the list of its rows.  Streams that end in
an error are not modelled.
-/
namespace Verif.Chunk

scoped notation "U32" => 4294967296

variable {α : Type}

/-! ## chunk_stream -/

/-- chunker.rs:16-26 `BatchReaderChunker` (without `output_size`). -/
structure Chunker (α : Type) where
  inner : List (List α)
  buffered : List (List α)
  i : Nat
deriving Repr, DecidableEq

/-- chunker.rs:38-41 `buffered_len`.  The subtraction does not underflow: `i` counts rows of the first
batch (`C29_chunk` is proved with the invariant). -/
def bufferedLen (buffered : List (List α)) (i : Nat) : Nat := (buffered.map List.length).sum - i

/-- chunker.rs:43-52 `fill_buffer`. -/
def fill (size : Nat) (i : Nat) : List (List α) → List (List α) → List (List α) × List (List α)
  | [], buffered => ([], buffered)
  | b :: inner, buffered =>
    if bufferedLen buffered i < size then fill size i inner (buffered ++ [b])
    else (b :: inner, buffered)

/-- chunker.rs:64-95, the `while` loop of `next`: pieces, remaining buffer, position in its first
batch. -/
def collect (size : Nat) : Nat → List (List α) → Nat → List (List α) × List (List α) × Nat
  | _, [], i => ([], [], i)
  | collected, b :: buffered, i =>
    if collected < size then
      if b.length = 0 then collect size collected buffered i
      else
        let remaining := b.length - i
        let take := min remaining (size - collected)
        if take = remaining then
          let r := collect size (collected + take) buffered 0
          ((if i = 0 then b else (b.drop i).take take) :: r.1, r.2)
        else
          -- `take = size - collected` here, so the loop stops
          ([(b.drop i).take take], b :: buffered, i + take)
    else ([], b :: buffered, i)

/-- chunker.rs:54-101 `next`. -/
def next (size : Nat) (c : Chunker α) : Option (List (List α) × Chunker α) :=
  let f := fill size c.i c.inner c.buffered
  let r := collect size 0 f.2 c.i
  if r.1.isEmpty then none else some (r.1, ⟨f.1, r.2.1, r.2.2⟩)

/-- chunker.rs:161-177 `chunk_stream`, with fuel for the number of chunks. -/
def chunks (size : Nat) : Nat → Chunker α → List (List (List α))
  | 0, _ => []
  | fuel + 1, c =>
    match next size c with
    | none => []
    | some (batches, c') => batches :: chunks size fuel c'

/-- chunker.rs:161-177 `chunk_stream`: the fuel is more than the number of rows, and so of chunks. -/
def chunkStream (stream : List (List α)) (size : Nat) : List (List (List α)) :=
  chunks size (stream.flatten.length + 1) ⟨stream, [], 0⟩

/-- chunker.rs:179-198 `chunk_concat_stream`. -/
def chunkConcatStream (stream : List (List α)) (size : Nat) : List (List α) :=
  (chunkStream stream size).map List.flatten

/-! ## break_stream -/

/-- chunker.rs:111-131 `BreakStreamState::next` repeated until the batch is used up; `seen` rows of the
current period have passed.  Each round but the last emits rows, so the length of the batch is enough
fuel.  `none` is a panic (division by zero). -/
def breakBatch (maxRows : Nat) : Nat → Nat → List α → List (List α)
  | 0, _, _ => []
  | fuel + 1, seen, batch =>
    if batch.length = 0 then []
    else if batch.length + seen ≤ maxRows then [batch]
    else batch.take (maxRows - seen) :: breakBatch maxRows fuel 0 (batch.drop (maxRows - seen))

/-- chunker.rs:140-159 `break_stream`. -/
def breakFrom (maxRows : Nat) : Nat → List (List α) → List (List α)
  | _, [] => []
  | seen, b :: bs =>
    breakBatch maxRows b.length seen b ++ breakFrom maxRows ((seen + b.length) % maxRows) bs

/-- chunker.rs:140-159; a size of zero panics in `% 0` with the first batch. -/
def breakStream (stream : List (List α)) (maxRows : Nat) : Option (List (List α)) :=
  if maxRows = 0 then (if stream.isEmpty then some [] else none)
  else some (breakFrom maxRows 0 stream)

/-! ## The writing loop -/

/-- The file being written: rows so far (of a writer that is open). -/
structure Writer (α : Type) where
  done : List (List α)
  cur : Option (List α)
  inCurrent : Nat

/-- write.rs:256-283, one chunk.  `bytesFull` says whether `tell` has reached `max_bytes_per_file` after
this chunk.  `u32` counts. -/
def writeChunk (maxRows : Nat) (w : Writer α) (chunk : List (List α)) (bytesFull : Bool) : Writer α :=
  let cur := (w.cur.getD []) ++ chunk.flatten
  let n := (w.inCurrent + chunk.flatten.length) % U32
  if n ≥ maxRows % U32 ∨ bytesFull = true then ⟨w.done ++ [cur], none, 0⟩
  else ⟨w.done, some cur, n⟩

/-- write.rs:253-283, all chunks; chunk number `k` asks `bytesFull k`. -/
def writeLoop (maxRows : Nat) (bytesFull : Nat → Bool) : Nat → Writer α → List (List (List α)) → Writer α
  | _, w, [] => w
  | k, w, c :: cs => writeLoop maxRows bytesFull (k + 1) (writeChunk maxRows w c (bytesFull k)) cs

/-- write.rs:286-291: finish the last writer. -/
def finish (w : Writer α) : List (List α) :=
  match w.cur with
  | none => w.done
  | some cur => w.done ++ [cur]

/-- write.rs:233-293 `do_write_fragments`: the rows of the files; `none` is a panic.  Legacy files cut the
stream into groups (321: a group is not larger than a file), other files break it at the file limit. -/
def writeFragments (legacy : Bool) (maxRows maxGroup : Nat) (bytesFull : Nat → Bool) (stream : List (List α)) :
    Option (List (List α)) :=
  if legacy then
    some (finish (writeLoop maxRows bytesFull 0 ⟨[], none, 0⟩ (chunkStream stream (min maxGroup maxRows))))
  else
    match breakStream stream maxRows with
    | none => none
    | some bs => some (finish (writeLoop maxRows bytesFull 0 ⟨[], none, 0⟩ (bs.map (fun b => [b]))))

end Verif.Chunk
