import Verif.Naming.Lemmas
/-!
# C20: version file names and the latest version
-/
namespace Verif.Naming

scoped notation "U63" => (9223372036854775808 : Nat)
scoped notation "U64" => (18446744073709551616 : Nat)

/-! ## Names -/

theorem attached {v : Nat} (h : v < U63) : isDetached v = false := by
  simp [isDetached]; omega

theorem name_v1 {v : Nat} (h : v < U63) : fileName .v1 v = showNat v ++ '.' :: ext := by
  simp [fileName, attached h]

theorem name_v2 {v : Nat} (h : v < U63) :
    fileName .v2 v = digitsW 20 (18446744073709551615 - v) ++ '.' :: ext := by
  simp [fileName, attached h, showPadded_eq (show 18446744073709551615 - v < U64 by omega)]

theorem name_detached {v : Nat} (s : Scheme) (h : U63 ≤ v) :
    fileName s v = 'd' :: (showNat v ++ '.' :: ext) := by
  have : isDetached v = true := by simp [isDetached]; omega
  simp [fileName, this]

theorem head_digit {x : Name} (hne : x ≠ []) (h : ∀ c ∈ x, IsDigit c) (y : Name) :
    (x ++ y).head? ≠ some 'd' := by
  cases x with
  | nil => exact absurd rfl hne
  | cons c cs =>
    simp only [List.cons_append, List.head?_cons, ne_eq, Option.some.injEq]
    exact isDigit_ne (h c (List.mem_cons_self ..)) (by decide)

theorem digitsW_ne_nil {k n : Nat} (h : 0 < k) : digitsW k n ≠ [] := by
  intro e
  have := digitsW_length k n
  rw [e] at this
  simp at this; omega

theorem detect_of {x : Name} (hne : x ≠ []) (h : ∀ c ∈ x, IsDigit c) :
    detect (x ++ '.' :: ext) = some (if x.length = 20 then .v2 else .v1) := by
  unfold detect
  rw [if_neg (head_digit hne h _), if_pos]
  · have : (x ++ '.' :: ext).length = 29 ↔ x.length = 20 := by simp [ext]
    by_cases hl : x.length = 20
    · rw [if_pos (this.2 hl), if_pos hl]
    · rw [if_neg (fun e => hl (this.1 e)), if_neg hl]
  · rw [List.isSuffixOf_iff_suffix]
    exact ⟨x ++ ['.'], by simp⟩

/-- C20: the version and the naming scheme can be recovered from a file name. -/
theorem C20_name_roundtrip (s : Scheme) (v : Nat) (h : v < U63) :
    detect (fileName s v) = some s ∧ parseVersion s (fileName s v) = some v := by
  cases s with
  | v1 =>
    rw [name_v1 h]
    have hd := showNat_digits v
    have hl := showNat_length_19 h
    refine ⟨?_, ?_⟩
    · rw [detect_of (showNat_ne_nil v) hd, if_neg (by omega)]
    · simp only [parseVersion, beforeDot_append (no_dot hd), Option.bind_some,
        parseU64_digits (showNat_ne_nil v) hd]
      exact parseDigits_showNat (by omega)
  | v2 =>
    rw [name_v2 h]
    have hd := digitsW_digits 20 (18446744073709551615 - v)
    have hne : digitsW 20 (18446744073709551615 - v) ≠ [] := digitsW_ne_nil (by omega)
    refine ⟨?_, ?_⟩
    · rw [detect_of hne hd, digitsW_length, if_pos rfl]
    · simp only [parseVersion, beforeDot_append (no_dot hd), Option.bind_some, parseU64_digits hne hd]
      rw [parseDigits_digitsW (by omega) (by omega)]
      simp only [Option.map_some, Option.some.injEq]
      omega

theorem parse_detached {v : Nat} (s : Scheme) (h : U63 ≤ v) :
    detect (fileName s v) = some .v2 ∧ ∀ t, parseVersion t (fileName s v) = none := by
  rw [name_detached s h]
  refine ⟨by simp [detect], ?_⟩
  have hb : beforeDot ('d' :: (showNat v ++ '.' :: ext)) = some ('d' :: showNat v) := by
    have := beforeDot_append (x := 'd' :: showNat v) (y := ext) (by
      simp only [List.mem_cons, not_or]
      exact ⟨by decide, no_dot (showNat_digits v)⟩)
    simpa using this
  intro t
  have hp : parseU64 ('d' :: showNat v) = none := by
    simp only [parseU64]
    rw [if_neg (by decide)]
    rfl
  cases t <;> simp only [parseVersion, hb, Option.bind_some, hp, Option.map_none]

/-- C20: two versions, attached or detached and under either scheme, never share a file name. -/
theorem C20_name_injective (s t : Scheme) (v w : Nat) (hv : v < U64) (hw : w < U64)
    (h : fileName s v = fileName t w) : v = w := by
  by_cases h1 : v < U63
  · have a := C20_name_roundtrip s v h1
    by_cases h2 : w < U63
    · have b := C20_name_roundtrip t w h2
      have hs : s = t := by
        have := a.1
        rw [h, b.1] at this
        exact (Option.some.inj this).symm
      subst hs
      have := a.2
      rw [h, b.2] at this
      exact (Option.some.inj this).symm
    · have b := (parse_detached t (by omega : U63 ≤ w)).2 s
      rw [← h, a.2] at b
      cases b
  · by_cases h2 : w < U63
    · have b := C20_name_roundtrip t w h2
      have a := (parse_detached s (by omega : U63 ≤ v)).2 t
      rw [h, b.2] at a
      cases a
    · rw [name_detached s (by omega), name_detached t (by omega)] at h
      have h3 := (List.cons.inj h).2
      have h4 := beforeDot_append (no_dot (showNat_digits v)) ext
      rw [h3, beforeDot_append (no_dot (showNat_digits w)) ext] at h4
      have h5 := parseDigits_showNat hv
      rw [← Option.some.inj h4, parseDigits_showNat hw] at h5
      exact (Option.some.inj h5).symm

/-- C20: under V2 the newest version sorts first, and detached versions sort after all others. -/
theorem C20_name_order (v w : Nat) (hv : v < U63) :
    (w < U63 → (lexLt (fileName .v2 v) (fileName .v2 w) = true ↔ w < v)) ∧
    (U63 ≤ w → lexLt (fileName .v2 v) (fileName .v2 w) = true) := by
  refine ⟨fun hw => ?_, fun hw => ?_⟩
  · rw [name_v2 hv, name_v2 hw, lexLt_append (by simp [digitsW_length]), digitsW_lt (by omega) (by omega)]
    have hself : lexLt ('.' :: ext) ('.' :: ext) = false := by decide
    simp only [hself, Bool.false_eq_true, and_false, or_false]
    omega
  · rw [name_v2 hv, name_detached _ hw]
    have hne : digitsW 20 (18446744073709551615 - v) ≠ [] := digitsW_ne_nil (by omega)
    have hd := digitsW_digits 20 (18446744073709551615 - v)
    cases hx : digitsW 20 (18446744073709551615 - v) with
    | nil => exact absurd hx hne
    | cons c cs =>
      rw [hx] at hd
      have := hd c (List.mem_cons_self ..)
      simp only [List.cons_append, lexLt, Bool.or_eq_true, decide_eq_true_eq]
      left
      have h57 := this.2
      have : ('d' : Char).toNat = 100 := by decide
      omega

/-- C20: a staged file is recognised as belonging to the scheme its version was written with. -/
theorem C20_staging_scheme (s : Scheme) (v : Nat) (id : Name) (h : v < U63) (hid : '.' ∉ id) :
    detectStaging (stagingName (fileName s v) id) = s ∧
    (stagingName (fileName s v) id).head? ≠ some 'd' := by
  cases s with
  | v2 =>
    rw [name_v2 h]
    refine ⟨?_, ?_⟩
    · unfold detectStaging stagingName
      rw [if_pos]
      rw [List.append_assoc, List.getElem?_append_right (by simp [digitsW_length])]
      simp [digitsW_length]
    · unfold stagingName
      rw [List.append_assoc]
      exact head_digit (digitsW_ne_nil (by omega)) (digitsW_digits _ _) _
  | v1 =>
    rw [name_v1 h]
    have hl := showNat_length_19 h
    refine ⟨?_, ?_⟩
    · unfold detectStaging stagingName
      rw [if_neg]
      rw [List.append_assoc, List.getElem?_append_right (by omega)]
      intro hc
      have h0 : 0 < 20 - (showNat v).length := by omega
      obtain ⟨k, hk⟩ : ∃ k, 20 - (showNat v).length = k + 1 := ⟨20 - (showNat v).length - 1, by omega⟩
      rw [hk] at hc
      simp only [List.cons_append, List.getElem?_cons_succ] at hc
      have hm := List.mem_of_getElem? hc
      rcases List.mem_append.1 hm with hm | hm
      · exact absurd hm (by decide)
      · rcases List.mem_cons.1 hm with hm | hm
        · exact absurd hm (by decide)
        · exact hid hm
    · unfold stagingName
      rw [List.append_assoc]
      exact head_digit (showNat_ne_nil v) (showNat_digits v) _

example : detect (fileName .v1 7) = some .v1 ∧ parseVersion .v1 (fileName .v1 7) = some 7 :=
  C20_name_roundtrip .v1 7 (by omega)
example : lexLt (fileName .v2 12) (fileName .v2 9) = true := ((C20_name_order 12 9 (by omega)).1 (by omega)).2 (by omega)

/-! ## The latest version -/

/-- The newest version of scheme `s` in the directory is `r`. -/
def IsLatest (s : Scheme) (dir : List Name) (r : Res) : Prop :=
  ∃ v, v < U63 ∧ fileName s v ∈ dir ∧ (∀ w, w < U63 → fileName s w ∈ dir → w ≤ v) ∧
    r = .ok ⟨v, fileName s v, s⟩

/-- A directory of version files of one scheme among files that are not version files. -/
def Uniform (s : Scheme) (dir : List Name) : Prop :=
  ∀ e ∈ dir, detect e = none ∨ ∃ v, v < U63 ∧ e = fileName s v

/-- The same, also with detached versions. -/
def UniformD (s : Scheme) (dir : List Name) : Prop :=
  ∀ e ∈ dir, detect e = none ∨ (∃ v, v < U63 ∧ e = fileName s v) ∨
    (s = .v2 ∧ ∃ v, U63 ≤ v ∧ e = fileName .v2 v)

/-- C20 as claimed: whatever the store and whatever the order of the listing (sorted if the store sorts),
resolving the latest version returns the newest version present. -/
def C20_statement : Prop := ∀ (isLocal ordered : Bool) (dir : List Name) (s : Scheme),
  UniformD s dir → (∃ v, v < U63 ∧ fileName s v ∈ dir) →
  (ordered = true → dir.Pairwise (fun a b => lexLt a b = true)) → IsLatest s dir (current isLocal ordered dir)

theorem localLoop_spec (s : Scheme) : ∀ (dir : List Name) (st : Option Scheme) (l : Option (Nat × Name)),
    UniformD s dir → (st = none ∨ st = some s) →
    (∀ p, l = some p → st = some s ∧ p.1 < U63 ∧ p.2 = fileName s p.1) →
    ∃ st' l', localLoop st l dir = some (st', l') ∧
      (∀ p, l' = some p → st' = some s ∧ p.1 < U63 ∧ p.2 = fileName s p.1 ∧ (l = some p ∨ p.2 ∈ dir)) ∧
      (∀ p, l = some p → ∃ q, l' = some q ∧ p.1 ≤ q.1) ∧
      (∀ w, w < U63 → fileName s w ∈ dir → ∃ q, l' = some q ∧ w ≤ q.1)
  | [], st, l, _, _, hl => by
    refine ⟨st, l, rfl, fun p hp => ?_, fun p hp => ⟨p, hp, Nat.le_refl _⟩, fun w _ hw => by cases hw⟩
    have := hl p hp
    exact ⟨this.1, this.2.1, this.2.2, .inl hp⟩
  | e :: es, st, l, hu, hst, hl => by
    have hu' : UniformD s es := fun x hx => hu x (List.mem_cons_of_mem _ hx)
    rcases hu e (List.mem_cons_self ..) with hnone | ⟨v, hv, he⟩ | ⟨hs, v, hv, he⟩
    · obtain ⟨st', l', h1, h2, h3, h4⟩ := localLoop_spec s es st l hu' hst hl
      refine ⟨st', l', by simp only [localLoop, hnone]; exact h1, fun p hp => ?_, h3, fun w hw hm => ?_⟩
      · obtain ⟨a, b, c, d⟩ := h2 p hp
        exact ⟨a, b, c, d.imp id (List.mem_cons_of_mem _)⟩
      · rcases List.mem_cons.1 hm with hm | hm
        · rw [← hm, (C20_name_roundtrip s w hw).1] at hnone
          cases hnone
        · exact h4 w hw hm
    · have hr := C20_name_roundtrip s v hv
      have hcond : ¬ (st ≠ none ∧ st ≠ some s) := by
        rcases hst with h | h <;> simp [h]
      -- the entry kept
      have hstep : ∃ k : Nat × Name, localLoop st l (e :: es) = localLoop (some s) (some k) es ∧
          k.1 < U63 ∧ k.2 = fileName s k.1 ∧ v ≤ k.1 ∧ (l = some k ∨ k.2 = e) ∧
          (∀ p, l = some p → p.1 ≤ k.1) := by
        cases hlc : l with
        | none =>
          refine ⟨(v, e), ?_, hv, he, Nat.le_refl _, .inr rfl, fun p hp => by cases hp⟩
          simp only [localLoop, he, hr.1, hr.2, if_neg hcond]
        | some p =>
          obtain ⟨hp1, hp2, hp3⟩ := hl p hlc
          by_cases hgt : v > p.1
          · refine ⟨(v, e), ?_, hv, he, Nat.le_refl _, .inr rfl, fun q hq => ?_⟩
            · simp only [localLoop, he, hr.1, hr.2, if_neg hcond, if_pos hgt]
            · cases hq; exact Nat.le_of_lt hgt
          · refine ⟨p, ?_, hp2, hp3, Nat.le_of_not_lt hgt, .inl rfl, fun q hq => ?_⟩
            · simp only [localLoop, he, hr.1, hr.2, if_neg hcond, if_neg hgt]
            · cases hq; exact Nat.le_refl _
      obtain ⟨k, hk1, hk2, hk3, hk4, hk5, hk6⟩ := hstep
      obtain ⟨st', l', h1, h2, h3, h4⟩ := localLoop_spec s es (some s) (some k) hu' (.inr rfl)
        (fun p hp => by cases hp; exact ⟨rfl, hk2, hk3⟩)
      obtain ⟨q, hq1, hq2⟩ := h3 k rfl
      refine ⟨st', l', hk1.trans h1, fun p hp => ?_, fun p hp => ⟨q, hq1, Nat.le_trans (hk6 p hp) hq2⟩,
        fun w hw hm => ?_⟩
      · obtain ⟨a, b, c, d⟩ := h2 p hp
        refine ⟨a, b, c, ?_⟩
        rcases d with d | d
        · cases d
          rcases hk5 with h | h
          · exact .inl h
          · exact .inr (h ▸ List.mem_cons_self ..)
        · exact .inr (List.mem_cons_of_mem _ d)
      · rcases List.mem_cons.1 hm with hm | hm
        · have : w = v := C20_name_injective s s w v (by omega) (by omega) (hm.trans he)
          exact ⟨q, hq1, by omega⟩
        · exact h4 w hw hm
    · subst hs
      have hr := parse_detached .v2 hv
      have hcond : ¬ (st ≠ none ∧ st ≠ some .v2) := by
        rcases hst with h | h <;> simp [h]
      obtain ⟨st', l', h1, h2, h3, h4⟩ := localLoop_spec .v2 es (some .v2) l hu' (.inr rfl)
        (fun p hp => ⟨rfl, (hl p hp).2⟩)
      refine ⟨st', l', ?_, fun p hp => ?_, h3, fun w hw hm => ?_⟩
      · simp only [localLoop, he, hr.1, hr.2 .v2, if_neg hcond]
        exact h1
      · obtain ⟨a, b, c, d⟩ := h2 p hp
        exact ⟨a, b, c, d.imp id (List.mem_cons_of_mem _)⟩
      · rcases List.mem_cons.1 hm with hm | hm
        · have : w = v := by
            by_cases hv64 : v < U64
            · exact C20_name_injective .v2 .v2 w v (by omega) hv64 (hm.trans he)
            · have := (C20_name_roundtrip .v2 w hw).2
              rw [hm, he, hr.2 .v2] at this
              cases this
          omega
        · exact h4 w hw hm

/-- C20 on a local file system: for entries in any order, with detached versions and other files among
them, the latest version is the newest. -/
theorem C20_latest_local (s : Scheme) (ordered : Bool) (dir : List Name) (hu : UniformD s dir)
    (hex : ∃ v, v < U63 ∧ fileName s v ∈ dir) : IsLatest s dir (current true ordered dir) := by
  obtain ⟨st', l', h1, h2, _, h4⟩ := localLoop_spec s dir none none hu (.inl rfl) (fun p hp => by cases hp)
  obtain ⟨v, hv, hm⟩ := hex
  obtain ⟨q, hq, hvq⟩ := h4 v hv hm
  obtain ⟨ha, hb, hc, hd⟩ := h2 q hq
  refine ⟨q.1, hb, ?_, ?_, ?_⟩
  · rcases hd with h | h
    · cases h
    · exact hc ▸ h
  · intro w hw hwm
    obtain ⟨q', hq', hle⟩ := h4 w hw hwm
    rw [hq] at hq'
    cases hq'
    exact hle
  · obtain ⟨qv, qn⟩ := q
    simp only at hc
    subst hc
    simp only [current, if_true, currentLocal, h1, ha, hq]

theorem valid_mem {s : Scheme} {dir : List Name} (hu : Uniform s dir) :
    ∀ p ∈ valid dir, ∃ v, v < U63 ∧ p = (s, fileName s v) ∧ fileName s v ∈ dir := by
  intro p hp
  obtain ⟨n, hn, hd⟩ := List.mem_filterMap.1 hp
  rcases hu n hn with h | ⟨v, hv, he⟩
  · rw [h] at hd; cases hd
  · subst he
    rw [(C20_name_roundtrip s v hv).1] at hd
    exact ⟨v, hv, (Option.some.inj hd).symm, hn⟩

theorem valid_of_mem {s : Scheme} {dir : List Name} {v : Nat} (hv : v < U63) (h : fileName s v ∈ dir) :
    (s, fileName s v) ∈ valid dir :=
  List.mem_filterMap.2 ⟨_, h, by rw [(C20_name_roundtrip s v hv).1]; rfl⟩

theorem sanity_ok (v : Nat) : ∀ r : List (Scheme × Name),
    (∀ p ∈ r, ∃ w, w < U63 ∧ p = (.v2, fileName .v2 w)) → sanity v r = true
  | [], _ => rfl
  | p :: ps, h => by
    obtain ⟨w, hw, he⟩ := h p (List.mem_cons_self ..)
    subst he
    simp only [sanity, (C20_name_roundtrip .v2 w hw).2]
    rw [if_neg (by simp)]
    split
    · rfl
    · exact sanity_ok v ps (fun q hq => h q (List.mem_cons_of_mem _ hq))

theorem maxLoop_spec : ∀ (r : List (Scheme × Name)) (v : Nat), v < U63 →
    (∀ p ∈ r, ∃ w, w < U63 ∧ p = (.v1, fileName .v1 w)) →
    ∃ m, m < U63 ∧ maxLoop .v1 v (fileName .v1 v) r = .ok ⟨m, fileName .v1 m, .v1⟩ ∧ v ≤ m ∧
      (m = v ∨ (.v1, fileName .v1 m) ∈ r) ∧ ∀ w, w < U63 → (.v1, fileName .v1 w) ∈ r → w ≤ m
  | [], v, hv, _ => ⟨v, hv, rfl, Nat.le_refl _, .inl rfl, fun w _ h => by cases h⟩
  | p :: ps, v, hv, h => by
    obtain ⟨w, hw, he⟩ := h p (List.mem_cons_self ..)
    subst he
    have h' : ∀ p ∈ ps, ∃ w, w < U63 ∧ p = (.v1, fileName .v1 w) := fun q hq => h q (List.mem_cons_of_mem _ hq)
    simp only [maxLoop, (C20_name_roundtrip .v1 w hw).2]
    rw [if_neg (by simp)]
    have key : ∀ x, x < U63 → fileName .v1 x = fileName .v1 w → x = w := fun x hx e =>
      C20_name_injective .v1 .v1 x w (by omega) (by omega) e
    by_cases hgt : w > v
    · rw [if_pos hgt]
      obtain ⟨m, h1, h2, h3, h4, h5⟩ := maxLoop_spec ps w hw h'
      refine ⟨m, h1, h2, by omega, ?_, fun x hx hm => ?_⟩
      · rcases h4 with h4 | h4
        · right; rw [h4]; exact List.mem_cons_self ..
        · right; exact List.mem_cons_of_mem _ h4
      · rcases List.mem_cons.1 hm with hm | hm
        · have := key x hx (congrArg Prod.snd hm); omega
        · exact h5 x hx hm
    · rw [if_neg hgt]
      obtain ⟨m, h1, h2, h3, h4, h5⟩ := maxLoop_spec ps v hv h'
      refine ⟨m, h1, h2, h3, h4.imp id (List.mem_cons_of_mem _), fun x hx hm => ?_⟩
      rcases List.mem_cons.1 hm with hm | hm
      · have := key x hx (congrArg Prod.snd hm); omega
      · exact h5 x hx hm

/-- C20 on an object store: V1 directories in any order, V2 directories on stores that list in
lexicographic order.  Missing from the full claim: V2 directories on stores that do not, and directories
with detached versions. -/
theorem C20_latest_listed_partial (s : Scheme) (ordered : Bool) (dir : List Name) (hu : Uniform s dir)
    (hex : ∃ v, v < U63 ∧ fileName s v ∈ dir)
    (hord : s = .v2 → ordered = true ∧ dir.Pairwise (fun a b => lexLt a b = true)) :
    IsLatest s dir (current false ordered dir) := by
  obtain ⟨v0, hv0, hm0⟩ := hex
  have hval := valid_mem hu
  simp only [current, Bool.false_eq_true, if_false, currentListed]
  cases hvd : valid dir with
  | nil =>
    have := valid_of_mem hv0 hm0
    rw [hvd] at this
    cases this
  | cons p ps =>
    rw [hvd] at hval
    obtain ⟨v, hv, he, hvm⟩ := hval p (List.mem_cons_self ..)
    subst he
    simp only [(C20_name_roundtrip s v hv).2]
    have hrest : ∀ q ∈ ps, ∃ w, w < U63 ∧ q = (s, fileName s w) := fun q hq => by
      obtain ⟨w, a, b, _⟩ := hval q (List.mem_cons_of_mem _ hq)
      exact ⟨w, a, b⟩
    cases s with
    | v2 =>
      obtain ⟨ho, hs⟩ := hord rfl
      rw [if_pos ⟨rfl, ho⟩, if_pos (sanity_ok v _ (fun q hq => hrest q (List.mem_of_mem_take hq)))]
      refine ⟨v, hv, hvm, fun w hw hwm => ?_, rfl⟩
      have hpw : (valid dir).Pairwise (fun a b => lexLt a.2 b.2 = true) := by
        unfold valid
        rw [List.pairwise_filterMap]
        apply hs.imp
        intro a b hab x hx y hy
        cases hda : detect a with
        | none => simp [hda] at hx
        | some sa =>
          cases hdb : detect b with
          | none => simp [hdb] at hy
          | some sb =>
            simp [hda] at hx
            simp [hdb] at hy
            subst hx hy
            exact hab
      rw [hvd, List.pairwise_cons] at hpw
      have hin := valid_of_mem hw hwm
      rw [hvd] at hin
      rcases List.mem_cons.1 hin with h | h
      · exact Nat.le_of_eq (C20_name_injective .v2 .v2 w v (by omega) (by omega) (congrArg Prod.snd h))
      · exact Nat.le_of_lt (((C20_name_order v w hv).1 hw).1 (hpw.1 _ h))
    | v1 =>
      rw [if_neg (by simp)]
      obtain ⟨m, h1, h2, h3, h4, h5⟩ := maxLoop_spec ps v hv hrest
      refine ⟨m, h1, ?_, fun w hw hwm => ?_, h2⟩
      · rcases h4 with h4 | h4
        · exact h4 ▸ hvm
        · obtain ⟨w, _, hw2, hw3⟩ := hval _ (List.mem_cons_of_mem _ h4)
          have he : fileName .v1 m = fileName .v1 w := congrArg Prod.snd hw2
          exact he ▸ hw3
      · have hin := valid_of_mem hw hwm
        rw [hvd] at hin
        rcases List.mem_cons.1 hin with h | h
        · have := C20_name_injective .v1 .v1 w v (by omega) (by omega) (congrArg Prod.snd h)
          omega
        · exact h5 w hw h

/-- On an object store that lists in order, a directory with one version and one detached version
panics: the sanity check unwraps the version of a detached file. -/
theorem C20_detached_violated (v d : Nat) (hv : v < U63) (hd : U63 ≤ d) :
    current false true [fileName .v2 v, fileName .v2 d] = .panic := by
  have h1 := C20_name_roundtrip .v2 v hv
  have h2 := parse_detached .v2 hd
  simp [current, currentListed, valid, h1.1, h1.2, h2.1, sanity, h2.2]

/-- On a store that does not list in order, a V2 directory with two versions is reported as mixed. -/
theorem C20_unordered_violated (v w : Nat) (hv : v < U63) (hw : w < U63) :
    current false false [fileName .v2 v, fileName .v2 w] = .mixed := by
  have h1 := C20_name_roundtrip .v2 v hv
  have h2 := C20_name_roundtrip .v2 w hw
  simp [current, currentListed, valid, h1.1, h1.2, h2.1, maxLoop]

theorem C20_violated : ¬ C20_statement := by
  intro h
  have h1 := h false true [fileName .v2 3, fileName .v2 U63] .v2 ?_ ⟨3, by omega, List.mem_cons_self ..⟩ ?_
  · rw [C20_detached_violated 3 U63 (by omega) (by omega)] at h1
    obtain ⟨v, _, _, _, e⟩ := h1
    cases e
  · intro e he
    rcases List.mem_cons.1 he with h | h
    · exact .inr (.inl ⟨3, by omega, h⟩)
    · exact .inr (.inr ⟨rfl, U63, Nat.le_refl _, List.mem_singleton.1 h⟩)
  · intro _
    simp only [List.pairwise_cons, List.mem_singleton, List.not_mem_nil, false_implies, implies_true,
      List.Pairwise.nil, and_true]
    rintro a rfl
    exact (C20_name_order 3 U63 (by omega)).2 (Nat.le_refl _)

/-- A directory half migrated to V2 is read as an older version: version 5 is there, 4 is returned. -/
theorem C20_half_migrated_violated :
    current false true [fileName .v2 4, fileName .v1 5] = .ok ⟨4, fileName .v2 4, .v2⟩ := by
  have h1 := C20_name_roundtrip .v2 4 (by omega)
  have h2 := C20_name_roundtrip .v1 5 (by omega)
  simp [current, currentListed, valid, h1.1, h1.2, h2.1, sanity]

/-! ## Resolving one version, and migration -/

/-- C20: a version present under one of the schemes, or detached, is found under its name. -/
theorem C20_resolve_version (files : List Name) (s : Scheme) (v : Nat) (h : fileName s v ∈ files)
    (huniq : isDetached v = true ∨ s = .v2 ∨ fileName .v2 v ∉ files) :
    (resolve files v).name = fileName s v ∧ (resolve files v).version = v := by
  unfold resolve
  by_cases hd : isDetached v = true
  · rw [if_pos hd]
    refine ⟨?_, rfl⟩
    simp [fileName, hd]
  · rw [if_neg hd]
    rcases huniq with h' | h' | h'
    · exact absurd h' hd
    · subst h'; rw [if_pos h]; exact ⟨rfl, rfl⟩
    · rw [if_neg h']
      cases s with
      | v1 => exact ⟨rfl, rfl⟩
      | v2 => exact absurd h h'

/-- A directory whose V1 files are version files. -/
def Migratable (files : List Name) : Prop :=
  ∀ e ∈ files, detect e ≠ some .v1 ∨ ∃ v, v < U63 ∧ e = fileName .v1 v

/-- C20: migration keeps every version, leaves other files alone, leaves no V1 file, and running it again
changes nothing. -/
theorem C20_migrate (files : List Name) (h : Migratable files) : ∃ files', migrate files = some files' ∧
    (∀ v, v < U63 → (fileName .v2 v ∈ files' ↔ fileName .v1 v ∈ files ∨ fileName .v2 v ∈ files)) ∧
    (∀ e, detect e = none → (e ∈ files' ↔ e ∈ files)) ∧
    (∀ e ∈ files', detect e ≠ some .v1) ∧ migrate files' = some files' := by
  unfold migrate
  induction files with
  | nil => exact ⟨[], rfl, by simp, by simp, by simp, rfl⟩
  | cons e es ih =>
    obtain ⟨es', h1, h2, h3, h4, h6⟩ := ih (fun x hx => h x (List.mem_cons_of_mem _ hx))
    rcases h e (List.mem_cons_self ..) with hne | ⟨v, hv, he⟩
    · have hm : migrateName e = some e := by simp [migrateName, hne]
      refine ⟨e :: es', by simp [List.mapM_cons, hm, h1], fun w hw => ?_, fun x hx => ?_, fun x hx => ?_,
        by simp [List.mapM_cons, hm, h6]⟩
      · have : ¬ fileName .v1 w = e := fun c => hne (c ▸ (C20_name_roundtrip .v1 w hw).1)
        simp only [List.mem_cons, h2 w hw, this, false_or]
        grind
      · simp only [List.mem_cons, h3 x hx]
      · rcases List.mem_cons.1 hx with c | c
        · exact c ▸ hne
        · exact h4 x c
    · subst he
      have hr := C20_name_roundtrip .v1 v hv
      have hr2 := C20_name_roundtrip .v2 v hv
      have hm : migrateName (fileName .v1 v) = some (fileName .v2 v) := by
        simp [migrateName, hr.1, hr.2]
      have hm2 : migrateName (fileName .v2 v) = some (fileName .v2 v) := by
        simp [migrateName, hr2.1]
      refine ⟨fileName .v2 v :: es', by simp [List.mapM_cons, hm, h1], fun w hw => ?_, fun x hx => ?_,
        fun x hx => ?_, by simp [List.mapM_cons, hm2, h6]⟩
      · have e1 : fileName .v2 w = fileName .v2 v ↔ w = v :=
          ⟨fun c => C20_name_injective _ _ w v (by omega) (by omega) c, fun c => c ▸ rfl⟩
        have e2 : fileName .v1 w = fileName .v1 v ↔ w = v :=
          ⟨fun c => C20_name_injective _ _ w v (by omega) (by omega) c, fun c => c ▸ rfl⟩
        have e3 : ¬ fileName .v2 w = fileName .v1 v := fun c => by
          have := (C20_name_roundtrip .v2 w hw).1
          rw [c, hr.1] at this
          cases this
        simp only [List.mem_cons, h2 w hw, e1, e2, e3, false_or]
        grind
      · have e1 : x ≠ fileName .v2 v := fun c => by rw [c, hr2.1] at hx; cases hx
        have e2 : x ≠ fileName .v1 v := fun c => by rw [c, hr.1] at hx; cases hx
        simp only [List.mem_cons, h3 x hx, e1, e2, false_or]
      · rcases List.mem_cons.1 hx with c | c
        · rw [c, hr2.1]; simp
        · exact h4 x c

theorem tmp_ignored : detect ("x.tmp".toList) = none := by decide

example : IsLatest .v2 [fileName .v2 3, "x.tmp".toList, fileName .v2 11, fileName .v2 U63]
    (current true false [fileName .v2 3, "x.tmp".toList, fileName .v2 11, fileName .v2 U63]) := by
  refine C20_latest_local .v2 false _ ?_ ⟨3, by omega, List.mem_cons_self ..⟩
  intro e he
  simp only [List.mem_cons, List.not_mem_nil, or_false] at he
  rcases he with h | h | h | h
  · exact .inr (.inl ⟨3, by omega, h⟩)
  · exact .inl (h ▸ tmp_ignored)
  · exact .inr (.inl ⟨11, by omega, h⟩)
  · exact .inr (.inr ⟨rfl, U63, Nat.le_refl _, h⟩)

example : IsLatest .v1 [fileName .v1 9, fileName .v1 10] (current false true [fileName .v1 9, fileName .v1 10]) := by
  refine C20_latest_listed_partial .v1 true _ ?_ ⟨9, by omega, List.mem_cons_self ..⟩ (fun h => by cases h)
  intro e he
  simp only [List.mem_cons, List.not_mem_nil, or_false] at he
  rcases he with h | h
  · exact .inr ⟨9, by omega, h⟩
  · exact .inr ⟨10, by omega, h⟩

end Verif.Naming
