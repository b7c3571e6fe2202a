import Verif.Zip.Spec
/-!
# Lemmas on control words
-/
namespace Verif.Zip
open Verif.Mini

theorem leBytes_length : ∀ (n x : Nat), (leBytes n x).length = n
  | 0, _ => rfl
  | n + 1, x => by rw [leBytes, List.length_cons, leBytes_length n]

theorem leBytes_lt : ∀ (n x : Nat), ∀ b ∈ leBytes n x, b < 256
  | 0, _, b, h => by simp [leBytes] at h
  | n + 1, x, b, h => by
    rw [leBytes, List.mem_cons] at h
    rcases h with h | h
    · subst h; exact Nat.mod_lt _ (by omega)
    · exact leBytes_lt n _ b h

theorem ofBytes_leBytes : ∀ (n x : Nat), ofBytes (leBytes n x) = x % 256 ^ n
  | 0, x => by simp [leBytes, ofBytes, Nat.mod_one]
  | n + 1, x => by
    rw [leBytes, ofBytes, ofBytes_leBytes n, Nat.pow_succ, Nat.mul_comm (256 ^ n) 256, Nat.mod_mul]

theorem ofBytes_leBytes_lt (n x : Nat) (h : x < 256 ^ n) : ofBytes (leBytes n x) = x := by
  rw [ofBytes_leBytes, Nat.mod_eq_of_lt h]

theorem widthOf_spec (v : Nat) (h0 : v ≠ 0) (h : v < 256) : v < 2 ^ widthOf v ∧ 0 < widthOf v ∧ widthOf v ≤ 8 := by
  unfold widthOf log2Ceil
  rw [if_neg h0, if_pos (by omega), if_pos (by omega), logTable, if_neg h0]
  have h1 := (Nat.log2_lt h0 (k := 8)).mpr (by omega)
  exact ⟨Nat.lt_log2_self, by omega, by omega⟩

theorem maskOf_spec (v : Nat) (h0 : v ≠ 0) (h : v < 256) : maskOf v = some (2 ^ widthOf v - 1) := by
  have := widthOf_spec v h0 h
  unfold maskOf getMask
  rw [if_neg h0, if_pos (by omega)]

theorem foldl_max_spec : ∀ (l : List Nat) (a : Nat), a ≤ l.foldl max a ∧ (∀ x ∈ l, x ≤ l.foldl max a) ∧
    (l.foldl max a = a ∨ l.foldl max a ∈ l)
  | [], a => ⟨Nat.le_refl _, by simp, Or.inl rfl⟩
  | x :: l, a => by
    obtain ⟨h1, h2, h3⟩ := foldl_max_spec l (max a x)
    rw [List.foldl_cons]
    refine ⟨by omega, ?_, ?_⟩
    · intro y hy
      rcases List.mem_cons.mp hy with e | e
      · subst e; omega
      · exact h2 y e
    · rcases h3 with h3 | h3
      · rw [h3]
        by_cases h : a ≤ x
        · right; rw [Nat.max_eq_right h]; simp
        · left; omega
      · exact Or.inr (List.mem_cons_of_mem _ h3)

/-- What the decoders rely on: the words of some slots can be parsed. -/
structure Parses {V : Type} (ps : Parser) (maxRep maxVis : Nat) (word : Slot V → List Nat) (dsc : Slot V → Desc) (slots : List (Slot V)) : Prop where
  length : ∀ s ∈ slots, (word s).length = ps.size
  levels : ∀ s ∈ slots, ∀ rest, ps.levels (word s ++ rest) =
    some (if ps.hasRep then some s.rep else none, if ps.hasDef then some s.dfn else none)
  desc : ∀ s ∈ slots, ∀ rest, ps.desc (word s ++ rest) maxRep maxVis = some (dsc s)
  visible : ∀ s ∈ slots, (ps.hasDef = true → (decide (s.dfn ≤ maxVis) = s.val.isSome)) ∧ (ps.hasDef = false → s.val.isSome = true)
  descs : ∀ s ∈ slots, dsc s = ⟨!ps.hasRep || decide (s.rep = maxRep), s.val.isSome, decide (s.dfn = 0)⟩

theorem take_word (ps : Parser) (w rest : List Nat) (h : w.length = ps.size) : (w ++ rest).take ps.size = w := by
  rw [← h, List.take_left]

theorem desc_of_levels (ps : Parser) (src : List Nat) (x : Option Nat × Option Nat) (h : ps.levels src = some x) (maxRep maxVis : Nat) :
    ps.desc src maxRep maxVis = some ⟨x.1.all fun r => r == maxRep,
      match x.1, x.2 with | some _, some d => decide (d ≤ maxVis) | _, _ => true, x.2.all fun d => d == 0⟩ := by
  unfold Parser.desc
  rw [h]
  rfl

/-- Words with both levels. -/
theorem parses_both {V : Type} (maxRep maxDef maxVisW maxVisR : Nat) (hr : maxRep ≠ 0) (hr2 : maxRep < 256) (hd : maxDef ≠ 0) (hd2 : maxDef < 256)
    (slots : List (Slot V)) (hrep : ∀ s ∈ slots, s.rep ≤ maxRep) (hdef : ∀ s ∈ slots, s.dfn ≤ maxDef)
    (hw : ∀ s ∈ slots, decide (s.dfn ≤ maxVisW) = s.val.isSome) (hv : ∀ s ∈ slots, decide (s.dfn ≤ maxVisR) = s.val.isSome) :
    ∃ w, controlWords (some (slots.map Slot.rep)) (some (slots.map Slot.dfn)) maxRep maxDef maxVisW slots.length = some w ∧
      (Parser.new w.bitsRep w.bitsDef).hasRep = true ∧ (Parser.new w.bitsRep w.bitsDef).hasDef = true ∧
      (Parser.new w.bitsRep w.bitsDef).size = w.bytesPerWord ∧ w.bytesPerWord ≤ 4 ∧ 0 < w.bytesPerWord ∧ 0 < w.bitsRep ∧
      ∃ word desc, w.words = slots.map (fun s => (word s, desc s)) ∧
        Parses (Parser.new w.bitsRep w.bitsDef) maxRep maxVisR word desc slots := by
  obtain ⟨r1, r2, r3⟩ := widthOf_spec maxRep hr hr2
  obtain ⟨d1, d2, d3⟩ := widthOf_spec maxDef hd hd2
  generalize hwr : widthOf maxRep = wr at *
  generalize hwd : widthOf maxDef = wd at *
  have hps : Parser.new wr wd = ⟨true, true, wordBytes (wr + wd), wd⟩ := by
    unfold Parser.new
    rw [if_neg (by omega), decide_eq_true r2, decide_eq_true d2]
  have hsz : wr + wd ≤ 8 * wordBytes (wr + wd) ∧ wordBytes (wr + wd) ≤ 4 ∧ 0 < wordBytes (wr + wd) := by
    unfold wordBytes
    split
    · omega
    · split <;> omega
  refine ⟨⟨wordBytes (wr + wd), wr, wd, slots.map fun s => (leBytes (wordBytes (wr + wd)) (s.rep * 2 ^ wd + s.dfn),
      (⟨decide (s.rep = maxRep), s.val.isSome, decide (s.dfn = 0)⟩ : Desc))⟩, ?_, by rw [hps], by rw [hps], by rw [hps], hsz.2.1, hsz.2.2, r2,
    fun s => leBytes (wordBytes (wr + wd)) (s.rep * 2 ^ wd + s.dfn),
    fun s => ⟨decide (s.rep = maxRep), s.val.isSome, decide (s.dfn = 0)⟩, ?_, ?_⟩
  · unfold controlWords
    rw [maskOf_spec maxRep hr hr2, maskOf_spec maxDef hd hd2, hwr, hwd]
    simp only [Option.some.injEq, Words.mk.injEq, true_and]
    have : (slots.map Slot.rep).zip (slots.map Slot.dfn) = slots.map fun s => (s.rep, s.dfn) := by
      rw [List.zip_map', ]
    rw [this, List.map_map]
    refine List.map_congr_left fun s hs => ?_
    have a1 : s.rep % 2 ^ wr = s.rep := Nat.mod_eq_of_lt (by have := hrep s hs; omega)
    have a2 : s.dfn % 2 ^ wd = s.dfn := Nat.mod_eq_of_lt (by have := hdef s hs; omega)
    simp only [Function.comp, binaryWord, Nat.and_two_pow_sub_one_eq_mod, a1, a2, hw s hs]
  · rfl
  · have hlt : ∀ s ∈ slots, s.rep * 2 ^ wd + s.dfn < 256 ^ wordBytes (wr + wd) := by
      intro s hs
      have b1 : s.rep < 2 ^ wr := by have := hrep s hs; omega
      have b2 : s.dfn < 2 ^ wd := by have := hdef s hs; omega
      have b3 : s.rep * 2 ^ wd + s.dfn < 2 ^ wr * 2 ^ wd := by
        have := Nat.mul_le_mul_right (2 ^ wd) (show s.rep + 1 ≤ 2 ^ wr from b1)
        rw [Nat.add_mul] at this
        omega
      rw [← Nat.pow_add] at b3
      refine Nat.lt_of_lt_of_le b3 ?_
      rw [show (256 : Nat) = 2 ^ 8 from rfl, ← Nat.pow_mul]
      exact Nat.pow_le_pow_right (by omega) hsz.1
    have hlev : ∀ s ∈ slots, ∀ rest, (Parser.new wr wd).levels (leBytes (wordBytes (wr + wd)) (s.rep * 2 ^ wd + s.dfn) ++ rest) =
        some (some s.rep, some s.dfn) := by
      intro s hs rest
      have b1 : s.rep < 65536 := by have := hrep s hs; omega
      have b2 : s.dfn < 65536 := by have := hdef s hs; omega
      have b3 : s.dfn < 2 ^ wd := by have := hdef s hs; omega
      rw [hps]
      unfold Parser.levels
      rw [if_neg (by simp [leBytes_length])]
      simp only
      rw [show (leBytes (wordBytes (wr + wd)) (s.rep * 2 ^ wd + s.dfn) ++ rest).take (wordBytes (wr + wd)) =
        leBytes (wordBytes (wr + wd)) (s.rep * 2 ^ wd + s.dfn) from by
          rw [List.take_append_of_le_length (by simp [leBytes_length]), List.take_of_length_le (by simp [leBytes_length])]]
      rw [ofBytes_leBytes_lt _ _ (hlt s hs), Nat.and_two_pow_sub_one_eq_mod]
      have c1 : (s.rep * 2 ^ wd + s.dfn) / 2 ^ wd = s.rep := by
        rw [Nat.mul_comm, Nat.mul_add_div (Nat.two_pow_pos wd), Nat.div_eq_of_lt b3, Nat.add_zero]
      have c2 : (s.rep * 2 ^ wd + s.dfn) % 2 ^ wd = s.dfn := by
        rw [Nat.mul_comm, Nat.mul_add_mod, Nat.mod_eq_of_lt b3]
      rw [c1, c2, Nat.mod_eq_of_lt b1, Nat.mod_eq_of_lt b2]
    refine ⟨?_, ?_, ?_, ?_, ?_⟩
    · intro s _; rw [hps]; exact leBytes_length _ _
    · intro s hs rest
      rw [hlev s hs rest, hps]
      rfl
    · intro s hs rest
      rw [desc_of_levels _ _ _ (hlev s hs rest)]
      simp only [Option.all_some, hv s hs]
      congr 2
    · intro s hs
      exact ⟨fun _ => hv s hs, fun h => by rw [hps] at h; simp at h⟩
    · intro s hs
      rw [hps]
      rfl

/-- Words with repetition levels only. -/
theorem parses_rep {V : Type} (maxRep maxVisW maxVisR len : Nat) (hr : maxRep ≠ 0) (hr2 : maxRep < 256)
    (slots : List (Slot V)) (hrep : ∀ s ∈ slots, s.rep ≤ maxRep) (hdef : ∀ s ∈ slots, s.dfn = 0) (hv : ∀ s ∈ slots, s.val.isSome = true) :
    ∃ w, controlWords (some (slots.map Slot.rep)) none maxRep 0 maxVisW len = some w ∧
      (Parser.new w.bitsRep w.bitsDef).hasRep = true ∧ (Parser.new w.bitsRep w.bitsDef).hasDef = false ∧
      (Parser.new w.bitsRep w.bitsDef).size = w.bytesPerWord ∧ w.bytesPerWord ≤ 4 ∧ 0 < w.bytesPerWord ∧ 0 < w.bitsRep ∧
      ∃ word desc, w.words = slots.map (fun s => (word s, desc s)) ∧
        Parses (Parser.new w.bitsRep w.bitsDef) maxRep maxVisR word desc slots := by
  obtain ⟨r1, r2, r3⟩ := widthOf_spec maxRep hr hr2
  generalize hwr : widthOf maxRep = wr at *
  have hw1 : wordBytes wr = 1 := by unfold wordBytes; rw [if_pos r3]
  have hps : Parser.new wr 0 = ⟨true, false, 1, 0⟩ := by
    unfold Parser.new
    rw [if_neg (by omega), decide_eq_true r2, Nat.add_zero, hw1]
    rfl
  refine ⟨⟨1, wr, 0, slots.map fun s => (leBytes 1 s.rep, (⟨decide (s.rep = maxRep), s.val.isSome, decide (s.dfn = 0)⟩ : Desc))⟩,
    ?_, by rw [hps], by rw [hps], by rw [hps], show 1 ≤ 4 by omega, show 0 < 1 by omega, r2, fun s => leBytes 1 s.rep, fun s => ⟨decide (s.rep = maxRep), s.val.isSome, decide (s.dfn = 0)⟩, rfl, ?_⟩
  · unfold controlWords
    rw [maskOf_spec maxRep hr hr2, hwr]
    simp only [maskOf, if_true, widthOf, Nat.add_zero, hw1, unaryWords]
    rw [if_neg (by omega)]
    simp only [Option.some.injEq, Words.mk.injEq, true_and, List.map_map]
    refine List.map_congr_left fun s hs => ?_
    have a1 : s.rep % 2 ^ wr = s.rep := Nat.mod_eq_of_lt (by have := hrep s hs; omega)
    simp only [Function.comp, unaryWord, Nat.and_two_pow_sub_one_eq_mod, a1, hr, hv s hs, hdef s hs, decide_false, Bool.false_or, decide_true, Bool.or_true]
  · have hlev : ∀ s ∈ slots, ∀ rest, (Parser.new wr 0).levels (leBytes 1 s.rep ++ rest) = some (some s.rep, none) := by
      intro s hs rest
      have b1 : s.rep < 256 := by have := hrep s hs; omega
      rw [hps]
      simp [Parser.levels, leBytes, ofBytes]
      omega
    refine ⟨?_, ?_, ?_, ?_, ?_⟩
    · intro s _; rw [hps]; exact leBytes_length _ _
    · intro s hs rest
      rw [hlev s hs rest, hps]
      rfl
    · intro s hs rest
      rw [desc_of_levels _ _ _ (hlev s hs rest)]
      simp only [Option.all_some, hv s hs, hdef s hs]
      congr 2
    · intro s hs
      exact ⟨fun h => by rw [hps] at h; simp at h, fun _ => hv s hs⟩
    · intro s hs
      rw [hps]
      rfl

/-- Words with definition levels only. -/
theorem parses_def {V : Type} (maxDef maxVisW maxRep maxVisR len : Nat) (hd : maxDef ≠ 0) (hd2 : maxDef < 256)
    (slots : List (Slot V)) (hdef : ∀ s ∈ slots, s.dfn ≤ maxDef) (hv : ∀ s ∈ slots, s.val.isSome = true)
    (hvr : ∀ s ∈ slots, s.dfn ≤ maxVisR) :
    ∃ w, controlWords none (some (slots.map Slot.dfn)) 0 maxDef maxVisW len = some w ∧
      (Parser.new w.bitsRep w.bitsDef).hasRep = false ∧ (Parser.new w.bitsRep w.bitsDef).hasDef = true ∧
      (Parser.new w.bitsRep w.bitsDef).size = w.bytesPerWord ∧ w.bytesPerWord ≤ 4 ∧ 0 < w.bytesPerWord ∧
      ∃ word desc, w.words = slots.map (fun s => (word s, desc s)) ∧
        Parses (Parser.new w.bitsRep w.bitsDef) maxRep maxVisR word desc slots := by
  obtain ⟨d1, d2, d3⟩ := widthOf_spec maxDef hd hd2
  generalize hwd : widthOf maxDef = wd at *
  have hw1 : wordBytes wd = 1 := by unfold wordBytes; rw [if_pos d3]
  have hps : Parser.new 0 wd = ⟨false, true, 1, wd⟩ := by
    unfold Parser.new
    rw [if_neg (by omega), decide_eq_true d2, Nat.zero_add, hw1]
    rfl
  refine ⟨⟨1, 0, wd, slots.map fun s => (leBytes 1 s.dfn, (⟨true, s.val.isSome, decide (s.dfn = 0)⟩ : Desc))⟩,
    ?_, by rw [hps], by rw [hps], by rw [hps], show 1 ≤ 4 by omega, show 0 < 1 by omega, fun s => leBytes 1 s.dfn, fun s => ⟨true, s.val.isSome, decide (s.dfn = 0)⟩, rfl, ?_⟩
  · unfold controlWords
    rw [maskOf_spec maxDef hd hd2, hwd]
    simp only [maskOf, if_true, widthOf, Nat.zero_add, hw1, unaryWords]
    rw [if_neg (by omega)]
    simp only [Option.some.injEq, Words.mk.injEq, true_and, List.map_map]
    refine List.map_congr_left fun s hs => ?_
    have a1 : s.dfn % 2 ^ wd = s.dfn := Nat.mod_eq_of_lt (by have := hdef s hs; omega)
    have a2 : ¬ wd = 0 := by omega
    simp only [Function.comp, unaryWord, Nat.and_two_pow_sub_one_eq_mod, a1, a2, hv s hs, decide_true, decide_false, Bool.true_or, Bool.or_false]
  · have hlev : ∀ s ∈ slots, ∀ rest, (Parser.new 0 wd).levels (leBytes 1 s.dfn ++ rest) = some (none, some s.dfn) := by
      intro s hs rest
      have b1 : s.dfn < 256 := by have := hdef s hs; omega
      rw [hps]
      simp [Parser.levels, leBytes, ofBytes]
      omega
    refine ⟨?_, ?_, ?_, ?_, ?_⟩
    · intro s _; rw [hps]; exact leBytes_length _ _
    · intro s hs rest
      rw [hlev s hs rest, hps]
      rfl
    · intro s hs rest
      rw [desc_of_levels _ _ _ (hlev s hs rest)]
      simp only [Option.all_some, Option.all_none, hv s hs]
      congr 2
    · intro s hs
      exact ⟨fun _ => by rw [hv s hs]; exact decide_eq_true (hvr s hs), fun h => by rw [hps] at h; simp at h⟩
    · intro s hs
      rw [hps]
      rfl

/-- No words at all. -/
theorem parses_none {V : Type} (maxVisW maxRep maxVisR : Nat)
    (slots : List (Slot V)) (hdef : ∀ s ∈ slots, s.dfn = 0) (hv : ∀ s ∈ slots, s.val.isSome = true) :
    ∃ w, controlWords none none 0 0 maxVisW slots.length = some w ∧
      (Parser.new w.bitsRep w.bitsDef).hasRep = false ∧ (Parser.new w.bitsRep w.bitsDef).hasDef = false ∧
      (Parser.new w.bitsRep w.bitsDef).size = w.bytesPerWord ∧ w.bytesPerWord = 0 ∧
      ∃ word desc, w.words = slots.map (fun s => (word s, desc s)) ∧
        Parses (Parser.new w.bitsRep w.bitsDef) maxRep maxVisR word desc slots := by
  have hps : Parser.new 0 0 = ⟨false, false, 0, 0⟩ := rfl
  refine ⟨⟨0, 0, 0, slots.map fun s => (([] : List Nat), (⟨true, s.val.isSome, decide (s.dfn = 0)⟩ : Desc))⟩,
    ?_, rfl, rfl, rfl, rfl, fun s => [], fun s => ⟨true, s.val.isSome, decide (s.dfn = 0)⟩, rfl, ?_⟩
  · unfold controlWords
    simp only [maskOf, if_true, Option.some.injEq, Words.mk.injEq, true_and]
    rw [show slots.map (fun s => (([] : List Nat), (⟨true, s.val.isSome, decide (s.dfn = 0)⟩ : Desc))) = slots.map (fun _ => (([] : List Nat), (⟨true, true, true⟩ : Desc))) from
      List.map_congr_left fun s hs => by rw [hv s hs, hdef s hs]; rfl]
    rw [List.map_const']
  · have hlev : ∀ s ∈ slots, ∀ rest, (Parser.new 0 0).levels ([] ++ rest) = some (none, none) := by
      intro s hs rest
      rfl
    refine ⟨?_, ?_, ?_, ?_, ?_⟩
    · intro s _; rfl
    · intro s hs rest; rfl
    · intro s hs rest
      rw [desc_of_levels _ _ _ (hlev s hs rest)]
      simp only [Option.all_none, hv s hs, hdef s hs]
      congr 2
    · intro s hs
      exact ⟨fun h => by rw [hps] at h; simp at h, fun _ => hv s hs⟩
    · intro s hs
      rw [hps]
      rfl

end Verif.Zip
