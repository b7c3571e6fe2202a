import Verif.RowSet.Model
import Verif.Chunk.Model
import Verif.Common.Sort

/-!
# Scalar indices: flat, bitmap, btree and label list

Models `rust/lance-index/src/scalar/{flat,bitmap,btree,label_list}.rs` and the page reader of
`scalar/lance_format.rs`.

* A column value is an `Option V`: `none` is NULL.  `V` is any type with a linear order.  That
  `OrderableScalarValue::cmp` (btree.rs:101-541), the equality of `ScalarValue`, the comparison kernels of arrow and
  the sort of DataFusion are all this one order (with NULL first) is assumed; values of another type and NaN, which
  the training of a btree refuses (btree.rs:1054-1069), are left out.
* A row of an index is `(value, row id)`.
* A panic is `none`.  I/O errors are left out.  Serialization of row sets is the round trip of C03 and left out.
* The page cache (btree.rs:674, 761-769) is left out: a page is read from the file each time.
-/
namespace Verif.Scalar
open Verif.RowSet (TreeMap)

/-- A linear order given by a boolean comparison. -/
class LinOrd (V : Type) where
  le : V → V → Bool
  total : ∀ a b, le a b = true ∨ le b a = true
  trans : ∀ a b c, le a b = true → le b c = true → le a c = true
  antisymm : ∀ a b, le a b = true → le b a = true → a = b

instance : LinOrd Nat where
  le a b := decide (a ≤ b)
  total a b := by simp only [decide_eq_true_eq]; omega
  trans a b c := by simp only [decide_eq_true_eq]; omega
  antisymm a b := by simp only [decide_eq_true_eq]; omega

/-- NULL is less than every value (btree.rs:95-97). -/
def oLe {V : Type} [LinOrd V] : Option V → Option V → Bool
  | none, _ => true
  | some _, none => false
  | some a, some b => LinOrd.le a b

instance {V : Type} [LinOrd V] : LinOrd (Option V) where
  le := oLe
  total a b := by cases a <;> cases b <;> simp [oLe, LinOrd.total]
  trans a b c := by
    cases a <;> cases b <;> cases c <;> simp [oLe]
    exact LinOrd.trans _ _ _
  antisymm a b := by
    cases a <;> cases b <;> simp [oLe]
    exact LinOrd.antisymm _ _

/-- Strictly less. -/
def lt {V : Type} [LinOrd V] (a b : V) : Bool := !LinOrd.le b a

variable {V : Type} [LinOrd V] [DecidableEq V]

/-- A value and the row id (or address) that has it. -/
abbrev Row (V : Type) := Option V × Nat

/-- `std::ops::Bound` of a value. -/
inductive Bd (V : Type) where
  | incl (x : V)
  | excl (x : V)
  | unb
  deriving DecidableEq, Repr

/-- scalar.rs `SargableQuery`, without full text search.  A bound of a range is a value: comparisons with a NULL
literal are folded away before they get here. -/
inductive Query (V : Type) where
  | range (lo hi : Bd V)
  | isIn (ws : List (Option V))
  | equals (w : Option V)
  | isNull
  deriving DecidableEq, Repr

/-! ## flat.rs -/

/-- flat.rs:230-275, the lower half of the comparison kernels. -/
def aboveLo : Bd V → V → Bool
  | .incl l, x => LinOrd.le l x
  | .excl l, x => lt l x
  | .unb, _ => true

/-- flat.rs:230-275, the upper half. -/
def belowHi : Bd V → V → Bool
  | .incl u, x => LinOrd.le x u
  | .excl u, x => lt x u
  | .unb, _ => true

/-- flat.rs:198-285: does `filter` keep a row with value `v`?  A predicate that is NULL does not keep it.
`IsIn`: `in_list` gives NULL for a NULL value, and NULL for a value that is not listed if NULL is listed.  If NULL is
listed and the page has NULLs the result is joined by `arrow::compute::or` with `is_null`; this kernel gives NULL
if either side is NULL, so a NULL value is never kept.  `Range`: NULLs are filtered out (lines 279-285). -/
def flatKeep : Query V → Option V → Bool
  | .equals w, v => v == w
  | .isNull, v => v == none
  | .isIn ws, some x => ws.contains (some x)
  | .isIn _, none => false
  | .range lo hi, some x => aboveLo lo x && belowHi hi x
  | .range _ _, none => false

/-- flat.rs:198-292 `FlatIndex::search`; `none` is the panic of a range without bounds. -/
def flatSearch (q : Query V) (rows : List (Row V)) : Option TreeMap :=
  if q = .range .unb .unb then none
  else some (RowSet.extendIds [] ((rows.filter (fun r => flatKeep q r.1)).map (·.2)))

/-- The address map of a compaction, `HashMap<u64, Option<u64>>`; `none` is "not in the map". -/
abbrev Mapping := Nat → Option (Option Nat)

/-- flat.rs:55-82 `remap_batch`, one row. -/
def remapRow (f : Mapping) (r : Row V) : Option (Row V) :=
  match f r.2 with
  | none => some r
  | some none => none
  | some (some n) => some (r.1, n)

/-- flat.rs:55-82 `remap_batch`. -/
def remapBatch (f : Mapping) (rows : List (Row V)) : List (Row V) := rows.filterMap (remapRow f)

/-! ## bitmap.rs -/

/-- bitmap.rs:38-47 `BitmapIndex`: `index_map` in key order, and `null_map`. -/
structure Bitmap (V : Type) where
  map : List (V × TreeMap)
  nulls : TreeMap

/-- `BTreeMap::get`/`HashMap::get`. -/
def getKey {K W : Type} [DecidableEq K] (k : K) (m : List (K × W)) : Option W :=
  (m.find? (fun e => e.1 == k)).map (·.2)

/-- `HashMap::insert` on an association list. -/
def setKey {K W : Type} [DecidableEq K] (k : K) (w : W) : List (K × W) → List (K × W)
  | [] => [(k, w)]
  | e :: m => if e.1 = k then (k, w) :: m else e :: setKey k w m

/-- `BTreeMap::insert`. -/
def insertKey {W : Type} (k : V) (w : W) : List (V × W) → List (V × W)
  | [] => [(k, w)]
  | e :: m =>
    if lt k e.1 then (k, w) :: e :: m
    else if e.1 = k then (k, w) :: m
    else e :: insertKey k w m

/-- bitmap.rs:345-370, one row: `state.entry(key).or_default().insert(row_id)`. -/
def trainRow (st : List (Option V × TreeMap)) (r : Row V) : List (Option V × TreeMap) :=
  setKey r.1 (RowSet.insert ((getKey r.1 st).getD []) r.2) st

/-- bitmap.rs:345-370 `do_train_bitmap_index` over all rows of the stream. -/
def trainState (st : List (Option V × TreeMap)) (rows : List (Row V)) : List (Option V × TreeMap) :=
  rows.foldl trainRow st

/-- bitmap.rs:67-112 `try_from_serialized`, one entry. -/
def loadEntry (b : Bitmap V) (e : Option V × TreeMap) : Bitmap V :=
  match e.1 with
  | none => { b with nulls := e.2 }
  | some k => { b with map := insertKey k e.2 b.map }

/-- bitmap.rs:67-112 `try_from_serialized`. -/
def loadBitmap (entries : List (Option V × TreeMap)) : Bitmap V := entries.foldl loadEntry ⟨[], []⟩

/-- `write_bitmap_index` (bitmap.rs:320-343) writes the entries of a hash map in the order `shuffle` in which it
happens to yield them; then the index is loaded. -/
def trainBitmap (shuffle : List (Option V × TreeMap) → List (Option V × TreeMap)) (rows : List (Row V)) : Bitmap V :=
  loadBitmap (shuffle (trainState [] rows))

/-- `BTreeMap::range` panics if the start is above the end, or both are excluded and equal (std documentation). -/
def rangePanics : Bd V → Bd V → Bool
  | .unb, _ => false
  | _, .unb => false
  | .incl a, .incl b => lt b a
  | .incl a, .excl b => lt b a
  | .excl a, .incl b => lt b a
  | .excl a, .excl b => lt b a || (a == b)

/-- bitmap.rs:211-223, one value of an `IsIn`. -/
def bitmapIn (b : Bitmap V) (acc : TreeMap) (w : Option V) : TreeMap :=
  match w with
  | none => RowSet.or acc b.nulls
  | some x => match getKey x b.map with
    | none => acc
    | some m => RowSet.or acc m

/-- bitmap.rs:174-230 `search`. -/
def bitmapSearch (b : Bitmap V) : Query V → Option TreeMap
  | .equals none => some b.nulls
  | .equals (some x) => some ((getKey x b.map).getD [])
  | .range lo hi =>
    if rangePanics lo hi then none
    else some (RowSet.unionAll ((b.map.filter (fun e => aboveLo lo e.1 && belowHi hi e.1)).map (·.2)))
  | .isIn ws => some (ws.foldl (bitmapIn b) [])
  | .isNull => some b.nulls

/-- bitmap.rs:255-263, one row set: rows that are not in the map are dropped (the `?` inside `filter_map`).
`none` is `row_ids().unwrap()` of a set with a whole fragment. -/
def remapSet (f : Mapping) (m : TreeMap) : Option TreeMap :=
  (RowSet.rowIds m).map (fun ids => RowSet.extendIds [] (ids.filterMap (fun i => (f i).join)))

/-- bitmap.rs:252-265, all entries. -/
def remapEntries (f : Mapping) : List (V × TreeMap) → Option (List (Option V × TreeMap))
  | [] => some []
  | e :: es => match remapSet f e.2, remapEntries f es with
    | some m, some r => some ((some e.1, m) :: r)
    | _, _ => none

/-- bitmap.rs:247-266 `remap`: only `index_map` is written. -/
def remapBitmap (shuffle : List (Option V × TreeMap) → List (Option V × TreeMap)) (f : Mapping) (b : Bitmap V) :
    Option (Bitmap V) :=
  (remapEntries f b.map).map (fun st => loadBitmap (shuffle st))

/-- bitmap.rs:268-286 `update`. -/
def updateBitmap (shuffle : List (Option V × TreeMap) → List (Option V × TreeMap)) (b : Bitmap V)
    (rows : List (Row V)) : Bitmap V :=
  loadBitmap (shuffle (trainState (setKey none b.nulls (b.map.map (fun e => (some e.1, e.2)))) rows))

/-! ## btree.rs -/

/-- btree.rs:1048-1052, 1122-1125 `BatchStats` and `EncodedBatch`: one row of the lookup file. -/
structure Stat (V : Type) where
  min : Option V
  max : Option V
  nulls : Nat
  page : Nat
  deriving DecidableEq, Repr

/-- `MinAccumulator`: the least value that is not NULL. -/
def minVal : List (Option V) → Option V
  | [] => none
  | none :: vs => minVal vs
  | some x :: vs => match minVal vs with
    | none => some x
    | some y => if LinOrd.le x y then some x else some y

/-- `MaxAccumulator`: the greatest value that is not NULL. -/
def maxVal : List (Option V) → Option V
  | [] => none
  | none :: vs => maxVal vs
  | some x :: vs => match maxVal vs with
    | none => some x
    | some y => if LinOrd.le y x then some x else some y

/-- btree.rs:1083-1092 `analyze_batch`. -/
def analyze (rows : List (Row V)) (page : Nat) : Stat V :=
  ⟨minVal (rows.map (·.1)), maxVal (rows.map (·.1)), (rows.filter (fun r => r.1 == none)).length, page⟩

/-- btree.rs:1217-1225, the loop over the batches. -/
def analyzeAll : Nat → List (List (Row V)) → List (Stat V)
  | _, [] => []
  | n, b :: bs => analyze b n :: analyzeAll (n + 1) bs

/-- The two files of a btree index and the batch size in the metadata of the second. -/
structure BTree (V : Type) where
  bs : Nat
  file : List (Row V)
  lookup : List (Stat V)
  deriving DecidableEq, Repr

/-- btree.rs:1206-1239 `train_btree_index` of a stream that is ordered by value.  The stream is cut into batches of
`bs` rows by `chunk_concat_stream` (index/scalar.rs:82, btree.rs:1294; C29). -/
def trainBTree (bs : Nat) (stream : List (List (Row V))) : BTree V :=
  let batches := Chunk.chunkConcatStream stream bs
  ⟨bs, batches.flatten, analyzeAll 0 batches⟩

/-- btree.rs:544-548 `PageRecord`. -/
structure PageRec (V : Type) where
  max : Option V
  page : Nat
  deriving DecidableEq, Repr

/-- btree.rs:563-568 `BTreeLookup`; the tree in key order. -/
structure Lookup (V : Type) where
  tree : List (Option V × List (PageRec V))
  nullPages : List Nat

/-- `map.entry(k).or_default()`, then the records are pushed. -/
def entry (k : Option V) (rs : List (PageRec V)) :
    List (Option V × List (PageRec V)) → List (Option V × List (PageRec V))
  | [] => [(k, rs)]
  | e :: m =>
    if lt k e.1 then (k, rs) :: e :: m
    else if e.1 = k then (e.1, e.2 ++ rs) :: m
    else e :: entry k rs m

/-- btree.rs:812-829, one row of the lookup file. -/
def addStat (t : List (Option V × List (PageRec V))) (s : Stat V) : List (Option V × List (PageRec V)) :=
  if s.max = none then t else entry s.min [⟨s.max, s.page⟩] t

/-- btree.rs:787-841 `try_from_serialized`. -/
def loadLookup (stats : List (Stat V)) : Lookup V :=
  match stats.getLast? with
  | none => ⟨[], []⟩
  | some last =>
    ⟨entry last.max [] (stats.foldl addStat []), (stats.filter (fun s => decide (0 < s.nulls))).map (·.page)⟩

/-- `Vec::dedup`. -/
def dedup : List Nat → List Nat
  | [] => []
  | [x] => [x]
  | x :: y :: xs => if x = y then dedup (y :: xs) else x :: dedup (y :: xs)

/-- btree.rs:574-585 `all_page_ids`: only neighbouring duplicates are removed. -/
def allPageIds (t : Lookup V) : List Nat :=
  dedup ((t.tree.flatMap (·.2)).map (·.page) ++ t.nullPages)

/-- btree.rs:555-560 `largest_node_less`. -/
def largestLess (k : Option V) (t : List (Option V × List (PageRec V))) : Option (Option V) :=
  ((t.filter (fun e => lt e.1 k)).getLast?).map (·.1)

/-- btree.rs:616-638, the key from which the tree is read (`none`: from its start). -/
def lowerKey (t : List (Option V × List (PageRec V))) : Bd V → Option (Option V)
  | .unb => none
  | .incl l => largestLess (some l) t
  | .excl l => largestLess (some l) t

/-- btree.rs:639-652, the key up to which the tree is read, always included. -/
def upperKey : Bd V → Option (Option V)
  | .unb => none
  | .incl u => some (some u)
  | .excl u => some (some u)

/-- Is a key inside the two (included) keys? -/
def inKeys (lo hi : Option (Option V)) (k : Option V) : Bool :=
  (match lo with | none => true | some l => LinOrd.le l k) && (match hi with | none => true | some u => LinOrd.le k u)

/-- `BTreeMap::range` panics if the start lies above the end. -/
def startAfterEnd : Option (Option V) → Option (Option V) → Bool
  | some a, some b => lt b a
  | _, _ => false

/-- btree.rs:612-665 `pages_between`; `none` is the panic of `BTreeMap::range` if the start is above the end. -/
def pagesBetween (t : Lookup V) (lo hi : Bd V) : Option (List Nat) :=
  let l := lowerKey t.tree lo
  let u := upperKey hi
  if startAfterEnd l u then none
  else
    let cand := (t.tree.filter (fun e => inKeys l u e.1)).flatMap (·.2)
    some ((match l with
      | none => cand
      | some a => cand.filter (fun r => !lt r.max a)).map (PageRec.page))

/-- btree.rs:587-594 `pages_eq`. -/
def pagesEq (t : Lookup V) : Option V → Option (List Nat)
  | none => some t.nullPages
  | some x => pagesBetween t (.incl x) (.excl x)

/-- All results or a panic. -/
def allSome {α : Type} : List (Option α) → Option (List α)
  | [] => some []
  | none :: _ => none
  | some x :: xs => (allSome xs).map (x :: ·)

/-- btree.rs:596-609 `pages_in`. -/
def pagesIn (t : Lookup V) (ws : List (Option V)) : Option (List Nat) :=
  (allSome (ws.map (pagesEq t))).map (fun ls => dedup (sortBy id ls.flatten))

/-- btree.rs:946-962. -/
def pagesFor (t : Lookup V) : Query V → Option (List Nat)
  | .equals w => pagesEq t w
  | .range lo hi => pagesBetween t lo hi
  | .isIn ws => pagesIn t ws
  | .isNull => some t.nullPages

/-- lance_format.rs:150-156 `read_record_batch`: rows `n * bs` up to the end of the page or of the file; nothing
if this is empty. -/
def readPage (bs : Nat) (file : List (Row V)) (n : Nat) : List (Row V) := (file.drop (bs * n)).take bs

/-- btree.rs:945-979 `search`. -/
def searchBTree (b : BTree V) (q : Query V) : Option TreeMap :=
  match pagesFor (loadLookup b.lookup) q with
  | none => none
  | some ps => (allSome (ps.map (fun p => flatSearch q (readPage b.bs b.file p)))).map (RowSet.extendMaps [])

/-- btree.rs:1000-1029 `remap`: the pages in the order of `all_page_ids`, each remapped; the lookup file as it was. -/
def remapBTree (f : Mapping) (b : BTree V) : BTree V :=
  { b with file := (allPageIds (loadLookup b.lookup)).flatMap (fun p => remapBatch f (readPage b.bs b.file p)) }

/-- btree.rs:844-857 `into_data_stream`: pages are read with the default batch size. -/
def dataStream (dflt : Nat) (b : BTree V) : List (List (Row V)) :=
  (allPageIds (loadLookup b.lookup)).map (readPage dflt b.file)

/-- `SortPreservingMergeExec` of two partitions: the head with the smaller value first; `tie` says which one goes
first if they are equal (`true`: the left), given how many rows are left on each side. -/
def merge (tie : Nat → Nat → Bool) : List (Row V) → List (Row V) → List (Row V)
  | [], ys => ys
  | x :: xs, ys => go x xs (merge tie xs) ys
where
  /-- `x :: xs` against `ys`; `rest` merges `xs`. -/
  go (x : Row V) (xs : List (Row V)) (rest : List (Row V) → List (Row V)) : List (Row V) → List (Row V)
    | [] => x :: xs
    | y :: ys =>
      if lt x.1 y.1 || (x.1 == y.1 && tie xs.length ys.length) then x :: rest (y :: ys)
      else y :: go x xs rest ys

/-- btree.rs:1031-1045 `update` with 1264-1295 `scan_ordered_chunks`.  `batches` is the way in which the merge cuts
its output. -/
def updateBTree (dflt : Nat) (tie : Nat → Nat → Bool) (batches : List (Row V) → List (List (Row V))) (b : BTree V)
    (new : List (Row V)) : BTree V :=
  trainBTree dflt (batches (merge tie (dataStream dflt b).flatten new))

/-! ## label_list.rs -/

/-- A row of a list column: the list (or NULL) and the row id. -/
abbrev LRow (V : Type) := Option (List (Option V)) × Nat

/-- label_list.rs:163-183, 213-262 `unnest_batch`: one row for each item.  A NULL list has no items (arrow allows a
NULL list with items behind it; the writer makes none). -/
def unnest (rows : List (LRow V)) : List (Row V) := rows.flatMap (fun r => (r.1.getD []).map (fun x => (x, r.2)))

/-- scalar.rs `LabelListQuery`. -/
inductive LQuery (V : Type) where
  | hasAll (labels : List (Option V))
  | hasAny (labels : List (Option V))
  deriving DecidableEq, Repr

/-- label_list.rs:78-89 `search_values`. -/
def searchValues (b : Bitmap V) (labels : List (Option V)) : Option (List TreeMap) :=
  allSome (labels.map (fun w => bitmapSearch b (.equals w)))

/-- label_list.rs:91-120: the first set, then the others one by one; `none` is the `unwrap` if there is none. -/
def foldSets (op : TreeMap → TreeMap → TreeMap) : List TreeMap → Option TreeMap
  | [] => none
  | m :: ms => some (ms.foldl op m)

/-- label_list.rs:124-140 `search`. -/
def searchLabels (b : Bitmap V) : LQuery V → Option TreeMap
  | .hasAll ls => (searchValues b ls).bind (foldSets RowSet.and)
  | .hasAny ls => (searchValues b ls).bind (foldSets RowSet.or)

end Verif.Scalar
