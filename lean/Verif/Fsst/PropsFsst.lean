import Verif.Fsst.LemmasBulk
/-! C84: strings compressed with FSST read back. -/
namespace Verif.Fsst

/-- **C84**.  For every array of strings (at most 2^30 bytes, so that all offsets are `i32`), whatever the random sample was: compression
does not crash, and unless it returns an error the compressed strings, taken in any order and any number of times, are decompressed to the
strings that went in, into any buffer of eight bytes for each compressed byte, without a write outside of it. -/
theorem C84_fsst_round_trip (o : Oracle) (buf offs : List Nat) (h : ArrayOk buf offs) (h31 : 2 * buf.length < 2 ^ 31) :
    compress o buf offs = .error .refused ∨ ∃ c, compress o buf offs = .ok c ∧
      (strings c.bytes c.offsets).length = (strings buf offs).length ∧
      ∀ rows : List Nat, (∀ i ∈ rows, i < (strings buf offs).length) → (rowsOf (strings buf offs) rows).flatten.length < 2 ^ 31 →
        ∀ cap capOffs, 8 * (rowsOf (strings c.bytes c.offsets) rows).flatten.length ≤ cap → rows.length + 1 ≤ capOffs →
          decompress c.table (rowsOf (strings c.bytes c.offsets) rows).flatten (offsetsFrom 0 (rowsOf (strings c.bytes c.offsets) rows))
            cap capOffs = .ok ((rowsOf (strings buf offs) rows).flatten, offsetsFrom 0 (rowsOf (strings buf offs) rows)) := by
  unfold compress
  by_cases hsmall : buf.length < leastInput
  · rw [if_pos hsmall]
    obtain ⟨tb, e, hd⟩ := export_ok (st := Table.init) (by simp [Table.init, Table.clear]) false
    rw [e]
    refine .inr ⟨_, rfl, rfl, fun rows hr _ cap capOffs hcap hoffs => ?_⟩
    simp only at hcap ⊢
    obtain ⟨d, e', _, hon⟩ := hd (rowsOf (strings buf offs) rows).flatten.length (offsetsFrom 0 (rowsOf (strings buf offs) rows)).length
      cap capOffs (by simp only [Bool.false_eq_true, if_false]; omega) (by rw [length_offsetsFrom, rowsOf, List.length_map]; omega)
    unfold decompress
    rw [e']
    show (if d.on = false then _ else _) = _
    rw [if_pos hon]
  · rw [if_neg hsmall]
    rcases build_ok o with e | ⟨st, e, hst, _⟩
    · left; rw [e]; rfl
    · right
      obtain ⟨tb, et, hd⟩ := export_ok hst.n true
      cases offs with
      | nil => exact absurd h.offsets (by simp [OffsetsOk])
      | cons a offs =>
        obtain ⟨fin, co, ec, hca, _⟩ := compressBulk_ok hst buf h.bytes (2 * buf.length) offs a [] h.offsets (by simp; omega) h31
        simp only [List.nil_append, List.length_nil] at ec hca
        obtain ⟨hl, hcodes⟩ := codes_of_strings hca
        rw [e]
        simp only [bind, Except.bind, et, ec]
        refine ⟨_, rfl, hl, fun rows hr h31' cap capOffs hcap hoffs => ?_⟩
        simp only at hcap ⊢
        generalize hS : strings buf (a :: offs) = S at *
        generalize hC : strings fin (0 :: co) = C at *
        have key : ∀ x ∈ rows.map (fun i => (C.getD i [], S.getD i [])), Codes st x.1 x.2 := by
          intro x hx
          obtain ⟨i, hi, rfl⟩ := List.mem_map.1 hx
          exact hcodes i (hr i hi)
        obtain ⟨offs', eo, hat⟩ := codesAt_flatten [] _ key
        have m1 : (rows.map (fun i => (C.getD i [], S.getD i []))).map (·.1) = rowsOf C rows := by
          rw [List.map_map]; rfl
        have m2 : (rows.map (fun i => (C.getD i [], S.getD i []))).map (·.2) = rowsOf S rows := by
          rw [List.map_map]; rfl
        rw [m1] at eo hat
        rw [m2] at hat
        simp only [List.nil_append, List.length_nil] at eo hat
        have hlo : (offsetsFrom 0 (rowsOf C rows)).length = rows.length + 1 := by rw [length_offsetsFrom, rowsOf, List.length_map]
        obtain ⟨d, ed, hdec, hon⟩ := hd (rowsOf C rows).flatten.length (offsetsFrom 0 (rowsOf C rows)).length cap capOffs
          (by simp only [if_true]; omega) (by omega)
        obtain ⟨co', e1, e2⟩ := decompressBulk_ok hst.n hdec cap 0 hat [] (by simp only [List.length_nil]; omega) (by simpa using h31')
        simp only [List.nil_append, List.length_nil] at e1 e2
        unfold decompress
        simp only [ed, bind, Except.bind, hon, Bool.true_eq_false, if_false]
        rw [eo, e1]
        simp only
        rw [e2]

/-- Arrays of less than 4 MiB are never refused. -/
theorem C84_small_never_refused (o : Oracle) (buf offs : List Nat) (h : buf.length < 4 * 1024 * 1024) :
    ∃ c, compress o buf offs = .ok c ∧ c.bytes = buf ∧ c.offsets = offs := by
  obtain ⟨tb, e, _⟩ := export_ok (st := Table.init) (by simp [Table.init, Table.clear]) false
  refine ⟨⟨tb, buf, offs⟩, ?_, rfl, rfl⟩
  unfold compress
  rw [if_pos (show buf.length < leastInput from h), e]
  rfl

/-- A sample that makes symbols: first "a", "b" and "ab", then "abab", then "abababab" (in whose slot "abab" finds no room), with "c" as the terminator. -/
def sample : Oracle where
  terminator := 99
  rounds := [(-100, [(97, none), (98, none), (97, some 98), (97, some 99)]),
    (10, [(256, none), (258, some 258), (258, none), (257, none)]),
    (20, [(257, some 257), (258, none), (257, none), (256, none), (259, none)]), (30, [])]

/-- The table that this sample gives: its symbols in the order of their codes. -/
theorem C84_nonvacuous_table :
    (match build sample with
      | .ok t => (List.range t.n).map (fun i => (t.symbols i).bytes)
      | .error _ => []) = [[97, 98], [97, 98, 97, 98, 97, 98, 97, 98], [97], [98]] := by
  decide +kernel

/-- "abababababXa" and "b": eight bytes, two, an escape and one; one. -/
theorem C84_nonvacuous_codes :
    (match build sample with
      | .ok t => (compressBulk t [97, 98, 97, 98, 97, 98, 97, 98, 97, 98, 88, 97, 98] 100 [0, 12, 13] []).toOption
      | .error _ => none) = some ([1, 0, 255, 88, 2, 3], [5, 6]) := by
  decide +kernel

/-- Every array with one string of 4 MiB or more meets the hypotheses, and is not refused for this sample. -/
theorem C84_nonvacuous (n : Nat) (h1 : 4 * 1024 * 1024 ≤ n) (h2 : n < 2 ^ 30) :
    ArrayOk (List.replicate n 97) [0, n] ∧ ∃ c, compress sample (List.replicate n 97) [0, n] = .ok c := by
  have hl : (List.replicate n 97).length = n := List.length_replicate
  have hbytes : ∀ b ∈ List.replicate n 97, b < 256 := fun b hb => by rw [List.eq_of_mem_replicate hb]; omega
  generalize List.replicate n 97 = buf at hl hbytes
  have ok : ArrayOk buf [0, n] := ⟨hbytes, Nat.zero_le _, by rw [OffsetsOk]; omega⟩
  refine ⟨ok, ?_⟩
  rcases C84_fsst_round_trip sample buf _ ok (by omega) with e | ⟨c, e, _⟩
  · exfalso
    have hb : (match build sample with | .ok t => decide (0 < t.n) | .error _ => false) = true := by decide +kernel
    unfold compress at e
    rw [if_neg (show ¬ buf.length < leastInput by unfold leastInput; omega)] at e
    rcases build_ok sample with e' | ⟨t, e', ht, _⟩
    · rw [e'] at hb; exact absurd hb (by decide)
    · obtain ⟨tb, et, _⟩ := export_ok ht.n true
      obtain ⟨fin, co, ec, _⟩ := compressBulk_ok ht buf hbytes (2 * buf.length) [n] 0 []
        ok.offsets (by simp only [List.length_nil]; omega) (by omega)
      rw [e'] at e
      simp only [bind, Except.bind, et, ec] at e
      cases e
  · exact ⟨c, e⟩

end Verif.Fsst
