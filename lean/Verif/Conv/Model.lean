/-!
# Columns converted to NumPy, Torch and other float types

Models `python/python/lance/_arrow/bf16.py` (36-80), `python/python/lance/arrow.py` `cast` (539-601),
`python/python/lance/torch/data.py` (36-45, 84-99) and `python/python/lance/torch/kmeans.py` (90-98).  An
Arrow array is a window on a buffer: slicing moves the window and leaves the buffer.  Values of the element
types and the conversions between them are abstract.  Not modelled: pandas arrays, chunked arrays, element
types that are not accepted (errors), lists of lists in `cast`.
-/
namespace Verif.Conv

/-- A primitive Arrow array (or the storage of a `BFloat16Array`): a buffer, the window, and the validity of
every slot of the buffer. -/
structure Arr (α : Type) where
  buf : List α
  off : Nat
  len : Nat
  valid : Nat → Bool

/-- The window is within the buffer. -/
def Arr.OK {α : Type} (a : Arr α) : Prop := a.off + a.len ≤ a.buf.length

/-- What a user sees: the values in the window. -/
def Arr.vals {α : Type} (a : Arr α) : List (Option α) :=
  (List.range a.len).map (fun i => if a.valid (a.off + i) then a.buf[a.off + i]? else none)

/-- `pa.Array.slice`. -/
def Arr.slice {α : Type} (a : Arr α) (o n : Nat) : Arr α :=
  { a with off := a.off + min o a.len, len := min n (a.len - min o a.len) }

/-- `null_count > 0`. -/
def Arr.hasNull {α : Type} (a : Arr α) : Bool := (List.range a.len).any (fun i => !a.valid (a.off + i))

/-- An array made from a buffer (`pa.array` of a NumPy array; bf16.py:79-80 `from_numpy`). -/
def ofList {α : Type} (l : List α) : Arr α := ⟨l, 0, l.length, fun _ => true⟩

/-- `pa.Array.to_numpy()` with its default `zero_copy_only=True`: nulls are an error. -/
def toNumpy {α : Type} (a : Arr α) : Option (List α) :=
  if a.hasNull then none else some ((a.buf.drop a.off).take a.len)

/-- bf16.py:36-50 `BFloat16Array.to_numpy`: `np.frombuffer` of the whole buffer. -/
def toNumpyBf {α : Type} (a : Arr α) : Option (List α) :=
  if a.hasNull then none else some a.buf

/-- arrow.py:566-575: from bfloat16. -/
def castFromBf {α β : Type} (up : α → β) (a : Arr α) : Option (Arr β) := (toNumpyBf a).map (fun l => ofList (l.map up))

/-- arrow.py:576-584: to bfloat16. -/
def castToBf {α β : Type} (down : β → α) (a : Arr β) : Option (Arr α) := (toNumpy a).map (fun l => ofList (l.map down))

/-- `pa.compute.cast` of a primitive array: slot by slot, nulls stay. -/
def castPlain {α β : Type} (g : α → β) (a : Arr α) : Option (Arr β) := some { a with buf := a.buf.map g }

/-- A fixed size list array: its child, its own window (counted in lists) and validity. -/
structure Fsl (α : Type) where
  values : Arr α
  size : Nat
  off : Nat
  len : Nat
  valid : Nat → Bool

/-- All lists of the window are in the child, which is itself in its buffer. -/
def Fsl.OK {α : Type} (f : Fsl α) : Prop := f.values.OK ∧ (f.off + f.len) * f.size ≤ f.values.len ∧ 0 < f.size

/-- List `i` of the child, whether null or not. -/
def Fsl.row {α : Type} (f : Fsl α) (i : Nat) : List (Option α) := (f.values.vals.drop (i * f.size)).take f.size

/-- What a user sees. -/
def Fsl.lists {α : Type} (f : Fsl α) : List (Option (List (Option α))) :=
  (List.range f.len).map (fun i => if f.valid (f.off + i) then some (f.row (f.off + i)) else none)

/-- `slice` leaves the child. -/
def Fsl.slice {α : Type} (f : Fsl α) (o n : Nat) : Fsl α :=
  { f with off := f.off + min o f.len, len := min n (f.len - min o f.len) }

/-- `pa.FixedSizeListArray.from_arrays(values, list_size)`. -/
def fromArrays {α : Type} (v : Arr α) (size : Nat) : Option (Fsl α) :=
  if size = 0 ∨ v.len % size ≠ 0 then none else some ⟨v, size, 0, v.len / size, fun _ => true⟩

/-- arrow.py:585-598: a fixed size list; `arr.values` is the whole child. -/
def castFsl {α β : Type} (c : Arr α → Option (Arr β)) (f : Fsl α) : Option (Fsl β) :=
  (c f.values).bind (fun v => fromArrays v f.size)

/-- `reshape(-1, size)` of NumPy. -/
def reshape {α : Type} (l : List α) (size : Nat) : Option (List (List α)) :=
  if size = 0 ∨ l.length % size ≠ 0 then none
  else some ((List.range (l.length / size)).map (fun i => (l.drop (i * size)).take size))

/-- torch/data.py:36-45 `_fsl_to_tensor`. -/
def fslToTensor {α : Type} (f : Fsl α) : Option (List (List α)) :=
  (toNumpy (f.values.slice (f.off * f.size) (f.len * f.size))).bind (fun l => reshape l f.size)

/-- torch/kmeans.py:90-98 `KMeans._to_tensor`. -/
def kmeansToTensor {α : Type} (f : Fsl α) : Option (List (List α)) :=
  (toNumpy f.values).bind (fun l => reshape l f.size)

end Verif.Conv
