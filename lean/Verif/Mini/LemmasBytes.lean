import Verif.Mini.LemmasCut
/-!
# Mini-block pages: the bytes of the chunks and the metadata words
-/
namespace Verif.Mini

variable {V : Type}

/-- The bytes of a chunk. -/
def outOf (rep d b : List Nat) : List Nat := chunkBytes 0 rep d b b.length

theorem pad8_add (p n : Nat) (h : p % 8 = 0) : pad8 (p + n) = pad8 n := by
  unfold pad8
  have : (p + n) % 8 = n % 8 := by omega
  rw [this]

theorem padded_eq (p : Nat) (l : List Nat) (h : p % 8 = 0) : padded p l = padded 0 l := by
  unfold padded
  rw [pad8_add p _ h, Nat.zero_add]

theorem chunkBytes_eq (p : Nat) (rep d b : List Nat) (h : p % 8 = 0) :
    chunkBytes p rep d b b.length = outOf rep d b := by
  unfold outOf chunkBytes
  rw [padded_eq p _ h, padded_eq p _ h]

def outsOf : List (List Nat) → List (List Nat) → List (List Nat) → List (List Nat)
  | rep :: reps, d :: ds, b :: bs => outOf rep d b :: outsOf reps ds bs
  | _, _, _ => []

/-- The metadata word of a chunk. -/
def wordOf (c : Chunk) (out : List Nat) : Nat := (((out.length / 8 - 1) <<< 4) ||| c.logNumValues) % 65536

def wordsOf : List Chunk → List (List Nat) → List Nat
  | c :: cs, o :: os => wordOf c o :: wordsOf cs os
  | _, _ => []

theorem serialize_ok (cs : List Chunk) : ∀ (reps ds bs : List (List Nat)) (at_ : Nat) (bytes words : List Nat),
    reps.length = cs.length → ds.length = cs.length → bs.length = cs.length → at_ % 8 = 0 →
    (∀ k (h : k < cs.length), cs[k].numBytes = (bs.getD k []).length) →
    serialize cs reps ds at_ bs.flatten = some (bytes, words) →
    bytes = (outsOf reps ds bs).flatten ∧ words = wordsOf cs (outsOf reps ds bs) ∧
      (∀ o ∈ outsOf reps ds bs, o.length ≤ 16384 ∧ 0 < o.length ∧ o.length % 8 = 0) ∧
      (∀ l ∈ reps, l.length < 65535) ∧ (∀ l ∈ ds, l.length < 65535) := by
  induction cs with
  | nil =>
    intro reps ds bs at_ bytes words h1 h2 h3 _ _ h
    have e1 : reps = [] := List.length_eq_zero_iff.mp h1
    have e2 : ds = [] := List.length_eq_zero_iff.mp h2
    have e3 : bs = [] := List.length_eq_zero_iff.mp h3
    subst e1; subst e2; subst e3
    simp only [serialize, Option.some.injEq, Prod.mk.injEq] at h
    rw [← h.1, ← h.2]
    simp [outsOf, wordsOf]
  | cons c cs ih =>
    intro reps ds bs at_ bytes words h1 h2 h3 h4 h5 h
    cases reps with
    | nil => simp at h1
    | cons rep reps =>
    cases ds with
    | nil => simp at h2
    | cons d ds =>
    cases bs with
    | nil => simp at h3
    | cons b bs =>
      have hb : c.numBytes = b.length := h5 0 (by simp)
      have htake : (b :: bs).flatten.take b.length = b := by
        rw [List.flatten_cons, List.take_left' rfl]
      have hdrop : (b :: bs).flatten.drop b.length = bs.flatten := by
        rw [List.flatten_cons, List.drop_left' rfl]
      rw [serialize] at h
      simp only [htake, hdrop, hb, chunkBytes_eq at_ rep d b h4] at h
      by_cases c1 : rep.length < 65535 ∧ d.length < 65535 ∧ b.length ≤ (b :: bs).flatten.length
      · rw [if_pos c1] at h
        by_cases c2 : (outOf rep d b).length ≤ 16 * 1024 ∧ 0 < (outOf rep d b).length ∧ (outOf rep d b).length % 8 = 0
        · rw [if_pos c2] at h
          split at h
          · exact absurd h (by simp)
          · rename_i bytes' words' hrec
            simp only [Option.some.injEq, Prod.mk.injEq] at h
            obtain ⟨i1, i2, i3, i4, i5⟩ := ih reps ds bs _ _ _ (by simpa using h1) (by simpa using h2) (by simpa using h3)
              (by omega) (fun k hk => by
                have := h5 (k + 1) (by simpa using hk)
                simpa using this) hrec
            refine ⟨?_, ?_, ?_, ?_, ?_⟩
            · rw [← h.1, i1]; rfl
            · rw [← h.2, i2]; rfl
            · intro o ho
              rcases List.mem_cons.mp ho with e | e
              · rw [e]; exact c2
              · exact i3 o e
            · intro l hl
              rcases List.mem_cons.mp hl with e | e
              · rw [e]; exact c1.1
              · exact i4 l e
            · intro l hl
              rcases List.mem_cons.mp hl with e | e
              · rw [e]; exact c1.2.1
              · exact i5 l e
        · rw [if_neg c2] at h; exact absurd h (by simp)
      · rw [if_neg c1] at h; exact absurd h (by simp)

theorem outsOf_length (reps ds bs : List (List Nat)) (n : Nat) (h1 : reps.length = n) (h2 : ds.length = n)
    (h3 : bs.length = n) : (outsOf reps ds bs).length = n := by
  induction n generalizing reps ds bs with
  | zero =>
    rw [List.length_eq_zero_iff.mp h1]; rfl
  | succ n ih =>
    cases reps with
    | nil => simp at h1
    | cons rep reps =>
    cases ds with
    | nil => simp at h2
    | cons d ds =>
    cases bs with
    | nil => simp at h3
    | cons b bs =>
      rw [outsOf, List.length_cons, ih reps ds bs (by simpa using h1) (by simpa using h2) (by simpa using h3)]

theorem outsOf_get (reps ds bs : List (List Nat)) (n : Nat) (h1 : reps.length = n) (h2 : ds.length = n)
    (h3 : bs.length = n) (k : Nat) (hk : k < n) :
    (outsOf reps ds bs)[k]? = some (outOf (reps.getD k []) (ds.getD k []) (bs.getD k [])) := by
  induction n generalizing reps ds bs k with
  | zero => omega
  | succ n ih =>
    cases reps with
    | nil => simp at h1
    | cons rep reps =>
    cases ds with
    | nil => simp at h2
    | cons d ds =>
    cases bs with
    | nil => simp at h3
    | cons b bs =>
      rw [outsOf]
      cases k with
      | zero => rfl
      | succ k =>
        have := ih reps ds bs (by simpa using h1) (by simpa using h2) (by simpa using h3) k (by omega)
        simpa using this

theorem word_ok (c : Chunk) (o : List Nat) (hl : c.logNumValues < 16) (h1 : o.length ≤ 16384) (h2 : 0 < o.length)
    (h3 : o.length % 8 = 0) :
    (wordOf c o / 16 + 1) * 8 = o.length ∧ wordOf c o % 16 = c.logNumValues := by
  unfold wordOf
  have h : (o.length / 8 - 1) <<< 4 ||| c.logNumValues = (o.length / 8 - 1) * 16 + c.logNumValues := by
    rw [← Nat.shiftLeft_add_eq_or_of_lt (by simpa using hl), Nat.shiftLeft_eq]
  rw [h]
  constructor <;> omega

def metasOf : List Nat → List (List Nat) → Nat → List ChunkMeta
  | n :: ns, o :: os, off => ⟨n, o.length, off⟩ :: metasOf ns os (off + o.length)
  | _, _, _ => []

theorem parseMeta_ok (items : Nat) (cs : List Chunk) : ∀ (ns : List Nat) (os : List (List Nat)) (rows off : Nat),
    LogsOk cs ns → os.length = cs.length → (∀ c ∈ cs, c.logNumValues < 16) →
    (∀ o ∈ os, o.length ≤ 16384 ∧ 0 < o.length ∧ o.length % 8 = 0) → items = rows + ns.sum →
    parseMeta items (wordsOf cs os) rows off = some (metasOf ns os off) := by
  induction cs with
  | nil =>
    intro ns os rows off hl hos _ _ _
    cases ns with
    | nil => rfl
    | cons n ns => exact absurd hl (by simp [LogsOk])
  | cons c cs ih =>
    intro ns os rows off hl hos hlog ho hi
    cases os with
    | nil => simp at hos
    | cons o os =>
    cases ns with
    | nil => exact absurd hl (by cases cs <;> simp [LogsOk])
    | cons n ns =>
      obtain ⟨o1, o2, o3⟩ := ho o List.mem_cons_self
      obtain ⟨w1, w2⟩ := word_ok c o (hlog c List.mem_cons_self) o1 o2 o3
      rw [wordsOf, parseMeta]
      simp only [w1, w2]
      cases cs with
      | nil =>
        cases ns with
        | cons n' ns => exact absurd hl (by simp [LogsOk])
        | nil =>
          have : os = [] := List.length_eq_zero_iff.mp (by simpa using hos)
          subst this
          simp only [List.sum_cons, List.sum_nil] at hi
          simp only [wordsOf, if_true]
          rw [if_pos (by omega)]
          simp only [parseMeta, metasOf]
          rw [show items - rows = n by omega]
      | cons c' cs =>
        cases ns with
        | nil => exact absurd hl (by simp [LogsOk])
        | cons n' ns =>
          cases os with
          | nil => simp at hos
          | cons o' os =>
          obtain ⟨l1, l2, l3⟩ := hl
          rw [List.sum_cons] at hi
          rw [if_neg (by simp [wordsOf]), l2]
          simp only
          rw [ih (n' :: ns) (o' :: os) (rows + n) (off + o.length) l3 (by simpa using hos)
            (fun x hx => hlog x (List.mem_cons_of_mem _ hx)) (fun x hx => ho x (List.mem_cons_of_mem _ hx)) (by omega)]
          rfl

theorem metasOf_get (ns : List Nat) (os : List (List Nat)) (off : Nat) (h : ns.length = os.length) (k : Nat)
    (hk : k < os.length) :
    (metasOf ns os off)[k]? = some ⟨ns.getD k 0, (os.getD k []).length, off + (os.take k).flatten.length⟩ := by
  induction os generalizing ns off k with
  | nil => simp at hk
  | cons o os ih =>
    cases ns with
    | nil => simp at h
    | cons n ns =>
      rw [metasOf]
      cases k with
      | zero => simp
      | succ k =>
        have := ih ns (off + o.length) (by simpa using h) k (by simpa using hk)
        rw [List.getElem?_cons_succ, this]
        simp only [List.getD_cons_succ, List.take_succ_cons, List.flatten_cons, List.length_append, Option.some.injEq,
          ChunkMeta.mk.injEq, true_and]
        omega

theorem metasOf_numValues (ns : List Nat) (os : List (List Nat)) (off : Nat) (h : ns.length = os.length) :
    (metasOf ns os off).map ChunkMeta.numValues = ns := by
  induction os generalizing ns off with
  | nil =>
    have : ns = [] := List.length_eq_zero_iff.mp h
    subst this; rfl
  | cons o os ih =>
    cases ns with
    | nil => simp at h
    | cons n ns => rw [metasOf, List.map_cons, ih ns _ (by simpa using h)]

theorem sliceLen_flatten (os : List (List Nat)) (k : Nat) (hk : k < os.length) :
    sliceLen os.flatten (os.take k).flatten.length (os.getD k []).length = some (os.getD k []) := by
  have h1 : os.flatten = (os.take k).flatten ++ (os.getD k [] ++ (os.drop (k + 1)).flatten) := by
    have : os = os.take k ++ (os.getD k [] :: os.drop (k + 1)) := by
      have e : os.getD k [] = os[k] := by simp [List.getD, hk]
      rw [e, List.getElem_cons_drop, List.take_append_drop]
    conv => lhs; rw [this]
    rw [List.flatten_append, List.flatten_cons]
  unfold sliceLen
  rw [h1, List.drop_left' rfl, List.take_left' rfl, if_pos (by simp only [List.length_append]; omega)]

theorem loadChunks_ok (ns : List Nat) (os : List (List Nat)) (h : ns.length = os.length) (ks : List Nat)
    (hk : ∀ k ∈ ks, k < os.length) :
    loadChunks (metasOf ns os 0) os.flatten ks = some (ks.map fun k => ⟨k, ns.getD k 0, os.getD k []⟩) := by
  induction ks with
  | nil => rfl
  | cons k ks ih =>
    have h1 := hk k List.mem_cons_self
    rw [loadChunks, metasOf_get ns os 0 h k h1, ih fun x hx => hk x (List.mem_cons_of_mem _ hx)]
    simp only [Nat.zero_add]
    rw [sliceLen_flatten os k h1]
    rfl

theorem un16_le16 (n : Nat) (h : n < 65536) : un16 (n % 256) (n / 256 % 256) = n := by
  unfold un16
  omega

theorem unpack_pack (ls : List Nat) (h : ∀ l ∈ ls, l < 65536) : unpackLevels (packLevels ls) = ls := by
  induction ls with
  | nil => rfl
  | cons l ls ih =>
    show unpackLevels (l % 256 :: l / 256 % 256 :: packLevels ls) = _
    rw [unpackLevels, un16_le16 l (h l List.mem_cons_self), ih fun x hx => h x (List.mem_cons_of_mem _ hx)]

theorem packLevels_length (ls : List Nat) : (packLevels ls).length = 2 * ls.length := by
  induction ls with
  | nil => rfl
  | cons l ls ih =>
    show (l % 256 :: l / 256 % 256 :: packLevels ls).length = _
    simp only [List.length_cons, ih]
    omega

theorem sliceLen_mid {A : Type} (a b c : List A) (p n : Nat) (h1 : p = a.length) (h2 : n = b.length) :
    sliceLen (a ++ b ++ c) p n = some b := by
  subst h1; subst h2
  unfold sliceLen
  rw [if_pos (by simp), List.append_assoc, List.drop_left' rfl, List.take_left' rfl]

theorem decodeChunk_ok (codec : Codec V) (rf df : Bool) (rep d b : List Nat) (n : Nat) (vs : List V)
    (h1 : rep.length < 65536) (h2 : d.length < 65536) (h3 : b.length < 65536) (he : rep.length % 2 = 0)
    (hdec : codec.decompress b n = some vs) :
    decodeChunk codec rf df (outOf rep d b) n =
      some (if rf then some (unpackLevels rep) else none, if df then some (unpackLevels d) else none, vs) := by
  have hhead : (le16 rep.length ++ le16 d.length ++ le16 b.length ++ rep ++ d).length = 6 + rep.length + d.length := by
    simp [le16]; omega
  obtain ⟨z, hz⟩ : ∃ z, outOf rep d b = (le16 rep.length ++ le16 d.length ++ le16 b.length) ++ rep ++
      (d ++ List.replicate (pad8 (6 + rep.length + d.length)) 0 ++ b ++ z) := by
    unfold outOf chunkBytes
    generalize hX : padded 0 (le16 rep.length ++ le16 d.length ++ le16 b.length ++ rep ++ d) = X
    unfold padded at hX ⊢
    rw [Nat.zero_add, hhead] at hX
    refine ⟨List.replicate (pad8 (0 + (X ++ b).length)) 0, ?_⟩
    rw [← hX]
    simp only [List.append_assoc]
  have hbuf : outOf rep d b = rep.length % 256 :: rep.length / 256 % 256 :: d.length % 256 :: d.length / 256 % 256 ::
      b.length % 256 :: b.length / 256 % 256 :: (outOf rep d b).drop 6 := by
    rw [hz]
    simp [le16]
  have s1 : sliceLen (outOf rep d b) 6 rep.length = some rep := by
    rw [hz]; exact sliceLen_mid _ _ _ _ _ (by simp [le16]) rfl
  have s2 : sliceLen (outOf rep d b) (6 + rep.length + 0) d.length = some d := by
    have : outOf rep d b = (le16 rep.length ++ le16 d.length ++ le16 b.length ++ rep) ++ d ++
        (List.replicate (pad8 (6 + rep.length + d.length)) 0 ++ b ++ z) := by
      rw [hz]; simp only [List.append_assoc]
    rw [this]; exact sliceLen_mid _ _ _ _ _ (by simp [le16]; omega) rfl
  have s3 : sliceLen (outOf rep d b) (6 + rep.length + d.length + pad8 (6 + rep.length + 0 + d.length)) b.length = some b := by
    have : outOf rep d b = (le16 rep.length ++ le16 d.length ++ le16 b.length ++ rep ++ d ++
        List.replicate (pad8 (6 + rep.length + d.length)) 0) ++ b ++ z := by
      rw [hz]; simp only [List.append_assoc]
    rw [this]
    exact sliceLen_mid _ _ _ _ _ (by rw [List.length_append, hhead, List.length_replicate, Nat.add_zero]) rfl
  generalize hB : outOf rep d b = B at *
  rw [hbuf]
  unfold decodeChunk
  simp only [un16_le16 _ h1, un16_le16 _ h2, un16_le16 _ h3, he]
  rw [← hbuf, s1, s2, s3]
  simp only [hdec, Option.map_some]

end Verif.Mini
