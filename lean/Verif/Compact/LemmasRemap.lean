import Verif.Compact.Model
/-!
# Lemmas on the row address map
-/
namespace Verif.Compact

theorem SIZE_pos : 0 < SIZE := by decide

attribute [local irreducible] SIZE

/-- All row addresses of the fragments, in order. -/
def addrs (F : List FR) : List Nat := F.flatMap (fun f => List.range' (f.id * SIZE) f.phys)

/-- The addresses not yet looked at. -/
def ahead (frags : List FR) (e : Nat) : List Nat :=
  match frags with
  | [] => []
  | f :: fs => List.range' e (f.id * SIZE + f.phys - e) ++ addrs fs

def Sized (F : List FR) : Prop := ∀ f ∈ F, 0 < f.phys ∧ f.phys < SIZE

theorem ahead_start {f : FR} {fs : List FR} : ahead (f :: fs) (f.id * SIZE) = addrs (f :: fs) := by
  simp [ahead, addrs]

/-- The position inside the current fragment. -/
def Inside (frags : List FR) (e : Nat) : Prop :=
  ∀ f fs, frags = f :: fs → f.id * SIZE ≤ e ∧ e < f.id * SIZE + f.phys

theorem range'_cons {a n : Nat} (h : 0 < n) : List.range' a n = a :: List.range' (a + 1) (n - 1) := by
  obtain ⟨m, rfl⟩ : ∃ m, n = m + 1 := ⟨n - 1, by omega⟩
  rfl

/-- One step over the current position. -/
theorem ahead_step {f : FR} {fs : List FR} {e : Nat} (hs : Sized (f :: fs)) (hi : Inside (f :: fs) e) :
    let fs' := if (e + 1) % SIZE = f.phys then fs else f :: fs
    let e' := if (e + 1) % SIZE = f.phys then nextStart fs (e + 1) else e + 1
    ahead (f :: fs) e = e :: ahead fs' e' ∧ Inside fs' e' ∧ Sized fs' ∧ e / SIZE = f.id := by
  obtain ⟨h1, h2⟩ := hi f fs rfl
  obtain ⟨p1, p2⟩ := hs f (List.mem_cons_self ..)
  have hdiv : e / SIZE = f.id := by
    have he : e = f.id * SIZE + (e - f.id * SIZE) := by omega
    have hk : e - f.id * SIZE < SIZE := by omega
    rw [he, Nat.mul_comm f.id, Nat.mul_add_div SIZE_pos]
    rw [Nat.mul_comm f.id] at hk
    rw [Nat.div_eq_of_lt hk, Nat.add_zero]
  have hmod : (e + 1) % SIZE = f.phys ↔ e + 1 = f.id * SIZE + f.phys := by
    have he : e + 1 = f.id * SIZE + (e + 1 - f.id * SIZE) := by omega
    rw [he, Nat.mul_comm f.id, Nat.mul_add_mod]
    have hk : e + 1 - SIZE * f.id ≤ f.phys := by rw [Nat.mul_comm]; omega
    rw [Nat.mod_eq_of_lt (by omega)]
    omega
  dsimp only
  by_cases hm : (e + 1) % SIZE = f.phys
  · have hm' := hmod.1 hm
    simp only [if_pos hm]
    refine ⟨?_, ?_, fun g hg => hs g (List.mem_cons_of_mem _ hg), hdiv⟩
    · simp only [ahead]
      rw [range'_cons (by omega), show f.id * SIZE + f.phys - e - 1 = 0 by omega]
      cases fs with
      | nil => simp [addrs]
      | cons g gs =>
        simp only [List.range'_zero, List.cons_append, List.nil_append, nextStart]
        rw [← ahead_start, ahead]
    · cases fs with
      | nil => intro g gs h; cases h
      | cons g gs =>
        intro g' gs' h
        cases h
        have := (hs g (by simp)).1
        simp only [nextStart]; omega
  · have hm' : ¬ e + 1 = f.id * SIZE + f.phys := fun h => hm (hmod.2 h)
    simp only [if_neg hm]
    refine ⟨?_, ?_, hs, hdiv⟩
    · simp only [ahead]
      rw [range'_cons (by omega), show f.id * SIZE + f.phys - e - 1 = f.id * SIZE + f.phys - (e + 1) by omega, List.cons_append]
    · intro g gs h
      cases h
      omega

/-- How the state stands for the row ids still to be matched. -/
def Pending (s : MSt) (R : List Nat) : Prop :=
  (s.last = none ∧ s.rest = R) ∨ (∃ v, s.last = some v ∧ R = v :: s.rest) ∨ (s.last = some 0 ∧ s.rest = [] ∧ R = [])

theorem filter_notMem_cons {a : Nat} {A R : List Nat} (h : (a :: A).Nodup) :
    A.filter (fun x => decide (x ∉ a :: R)) = A.filter (fun x => decide (x ∉ R)) := by
  apply List.filter_congr
  intro x hx
  have : x ≠ a := by rintro rfl; exact (List.nodup_cons.1 h).1 hx
  simp [this]

/-- The iterator yields the addresses without a row. -/
theorem missing_spec : ∀ (fuel : Nat) (s : MSt) (R : List Nat), Sized s.frags → Inside s.frags s.expected →
    Pending s R → R.Sublist (ahead s.frags s.expected) → (ahead s.frags s.expected).Nodup →
    (R = [] → 0 ∉ ahead s.frags s.expected) → 0 ∉ (ahead s.frags s.expected).tail →
    (ahead s.frags s.expected).length < fuel →
    missing fuel s = some ((ahead s.frags s.expected).filter (fun x => decide (x ∉ R)))
  | 0, s, R, _, _, _, _, _, _, _, hf => by omega
  | fuel + 1, s, R, hs, hi, hp, hsub, hnd, hz, hz2, hf => by
    cases hfr : s.frags with
    | nil => simp [missing, hfr, ahead]
    | cons f fs =>
      rw [hfr] at hs hi hsub hnd hz hz2 hf
      have hstep := ahead_step hs hi
      dsimp only at hstep
      obtain ⟨ha, hi', hs', hdiv⟩ := hstep
      simp only [missing, hfr]
      generalize hfs' : (if (s.expected + 1) % SIZE = f.phys then fs else f :: fs) = fs' at ha hi' hs' ⊢
      generalize he' : (if (s.expected + 1) % SIZE = f.phys then nextStart fs (s.expected + 1) else s.expected + 1) = e' at ha hi' ⊢
      rw [ha] at hsub hnd hz hz2 hf ⊢
      have hnd' := (List.nodup_cons.1 hnd).2
      have hz3 : 0 ∉ ahead fs' e' := hz2
      have hz4 : 0 ∉ (ahead fs' e').tail := fun h => hz3 (List.mem_of_mem_tail h)
      have hlen : (ahead fs' e').length < fuel := by simpa using hf
      -- what the next value is
      have hval : ∃ v rest', s.val = v ∧ s.rest' = rest' ∧
          ((R = [] ∧ v = 0 ∧ rest' = []) ∨ R = v :: rest') := by
        refine ⟨_, _, rfl, rfl, ?_⟩
        unfold MSt.val MSt.rest'
        rcases hp with ⟨h1, h2⟩ | ⟨v, h1, h2⟩ | ⟨h1, h2, h3⟩
        · rw [h1]
          cases R with
          | nil => left; simp [h2]
          | cons a R => right; simp [h2]
        · rw [h1]; right; exact h2
        · rw [h1]; left; exact ⟨h3, rfl, h2⟩
      obtain ⟨v, rest', hv1, hv2, hR⟩ := hval
      rw [hv1, hv2]
      have hcond : (v / SIZE ≠ f.id ∨ v ≠ s.expected) ↔ v ≠ s.expected := by
        constructor
        · rintro (h | h)
          · rintro rfl; exact h hdiv
          · exact h
        · exact .inr
      by_cases hve : v = s.expected
      · have hR' : R = v :: rest' := by
          rcases hR with ⟨h1, h2, _⟩ | h
          · exact absurd (by rw [← hve, h2]; simp) (hz h1)
          · exact h
        rw [if_neg (by rw [hcond]; simp [hve])]
        have hsub' : rest'.Sublist (ahead fs' e') := by
          rw [hR', hve] at hsub
          exact List.cons_sublist_cons.1 hsub
        rw [missing_spec fuel ⟨rest', e', fs', none⟩ rest' hs' hi' (.inl ⟨rfl, rfl⟩) hsub' hnd' (fun _ => hz3) hz4 hlen]
        rw [List.filter_cons_of_neg (by simp [hR', hve]), hR', hve, filter_notMem_cons hnd]
      · rw [if_pos (by rw [hcond]; exact hve)]
        have hnotin : s.expected ∉ R := by
          rcases hR with ⟨h1, _, _⟩ | h
          · rw [h1]; simp
          · intro hx
            rw [h] at hsub hx
            rcases List.mem_cons.1 hx with h' | h'
            · exact hve h'.symm
            · cases hsub with
              | cons _ hsub => exact (List.nodup_cons.1 hnd).1 (hsub.subset (List.mem_cons_of_mem _ h'))
              | cons_cons _ _ => exact hve rfl
        have hsub' : R.Sublist (ahead fs' e') := by
          cases hsub with
          | cons _ hsub => exact hsub
          | cons_cons _ _ => exact absurd (List.mem_cons_self ..) hnotin
        have hp' : Pending ⟨rest', e', fs', some v⟩ R := by
          rcases hR with ⟨h1, h2, h3⟩ | h
          · exact .inr (.inr ⟨by rw [h2], h3, h1⟩)
          · exact .inr (.inl ⟨v, rfl, h⟩)
        rw [missing_spec fuel ⟨rest', e', fs', some v⟩ R hs' hi' hp' hsub' hnd' (fun _ => hz3) hz4 hlen]
        rw [List.filter_cons_of_pos (by simpa using hnotin)]

/-! ## Addresses -/

theorem mem_addrs {F : List FR} {a : Nat} : a ∈ addrs F ↔ ∃ f ∈ F, f.id * SIZE ≤ a ∧ a < f.id * SIZE + f.phys := by
  simp only [addrs, List.mem_flatMap, List.mem_range'_1]

theorem addrs_sorted : ∀ {F : List FR}, (∀ f ∈ F, f.phys ≤ SIZE) → F.Pairwise (fun a b => a.id < b.id) →
    (addrs F).Pairwise (· < ·)
  | [], _, _ => List.Pairwise.nil
  | f :: fs, hs, hp => by
    have hp' := List.pairwise_cons.1 hp
    have hc : addrs (f :: fs) = List.range' (f.id * SIZE) f.phys ++ addrs fs := by simp [addrs]
    rw [hc, List.pairwise_append]
    refine ⟨List.pairwise_lt_range', addrs_sorted (fun g hg => hs g (List.mem_cons_of_mem _ hg)) hp'.2, ?_⟩
    intro a ha b hb
    rw [List.mem_range'_1] at ha
    obtain ⟨g, hg, h1, _⟩ := mem_addrs.1 hb
    have h2 := hp'.1 g hg
    have h3 := hs f (List.mem_cons_self ..)
    have h4 : (f.id + 1) * SIZE ≤ g.id * SIZE := Nat.mul_le_mul_right _ h2
    rw [Nat.add_mul] at h4
    omega

theorem mem_scan {α : Type} {old : List (Data α)} {a : Nat} {x : α} :
    (a, x) ∈ scan old ↔ ∃ f ∈ old, ∃ o, f.rows[o]? = some x ∧ f.dead o = false ∧ a = f.id * SIZE + o := by
  simp only [scan, List.mem_flatMap, List.mem_map, List.mem_filter, Prod.mk.injEq]
  constructor
  · rintro ⟨f, hf, ⟨y, o⟩, ⟨h1, h2⟩, h3, h4⟩
    have := List.mem_zipIdx_iff_getElem?.1 h1
    refine ⟨f, hf, o, ?_, by simpa using h2, h3.symm⟩
    rw [this]; exact congrArg some h4
  · rintro ⟨f, hf, o, h1, h2, h3⟩
    exact ⟨f, hf, (x, o), ⟨List.mem_zipIdx_iff_getElem?.2 h1, by simp [h2]⟩, h3.symm, rfl⟩

/-- The fragments as the remapper sees them. -/
def shape {α : Type} (old : List (Data α)) : List FR := old.map (fun f => ⟨f.id, f.rows.length⟩)

theorem zipIdx_addr {α : Type} (base : Nat) : ∀ (xs : List α) (k : Nat),
    (xs.zipIdx k).map (fun e => base + e.2) = List.range' (base + k) xs.length
  | [], k => rfl
  | x :: xs, k => by
    rw [List.zipIdx_cons, List.map_cons, zipIdx_addr base xs (k + 1)]; rfl

theorem scan_sublist {α : Type} : ∀ (old : List (Data α)), ((scan old).map (·.1)).Sublist (addrs (shape old))
  | [] => .slnil
  | f :: fs => by
    have e1 : (scan (f :: fs)).map (·.1) =
        ((f.rows.zipIdx.filter (fun e => !f.dead e.2)).map (fun e => f.id * SIZE + e.2)) ++ (scan fs).map (·.1) := by
      simp [scan, Function.comp_def]
    have e2 : addrs (shape (f :: fs)) = (f.rows.zipIdx.map (fun e => f.id * SIZE + e.2)) ++ addrs (shape fs) := by
      rw [zipIdx_addr]; simp [addrs, shape]
    rw [e1, e2]
    exact List.Sublist.append (List.Sublist.map _ List.filter_sublist) (scan_sublist fs)

theorem newIds_eq {α : Type} : ∀ (new : List (Data α)), (∀ g ∈ new, g.id < SIZE ∧ g.rows.length < SIZE ∧ ∀ o, g.dead o = false) →
    newIds (shape new) = (scan new).map (·.1)
  | [], _ => rfl
  | g :: gs, h => by
    have ih := newIds_eq gs (fun x hx => h x (List.mem_cons_of_mem _ hx))
    obtain ⟨h1, h2, h3⟩ := h g (List.mem_cons_self ..)
    have e1 : newIds (shape (g :: gs)) =
        (List.range (g.rows.length % SIZE)).map (fun o => (g.id % SIZE) * SIZE + o) ++ newIds (shape gs) := by
      simp [newIds, shape]
    have e2 : (scan (g :: gs)).map (·.1) =
        ((g.rows.zipIdx.filter (fun e => !g.dead e.2)).map (fun e => g.id * SIZE + e.2)) ++ (scan gs).map (·.1) := by
      simp [scan, Function.comp_def]
    rw [e1, e2, ih, Nat.mod_eq_of_lt h1, Nat.mod_eq_of_lt h2, List.filter_eq_self.2 (by simp [h3]), zipIdx_addr]
    rw [← List.range'_eq_map_range, Nat.add_zero]

theorem lookup_zip {β : Type} [BEq β] [LawfulBEq β] {γ : Type} : ∀ (ks : List β) (vs : List γ), ks.Nodup → ∀ (i : Nat) (k : β) (v : γ),
    ks[i]? = some k → vs[i]? = some v → (ks.zip vs).lookup k = some v
  | [], _, _, i, k, v, h, _ => by simp at h
  | _ :: _, [], _, i, k, v, _, h => by simp at h
  | k0 :: ks, v0 :: vs, hn, i, k, v, h1, h2 => by
    have hn' := List.nodup_cons.1 hn
    cases i with
    | zero =>
      simp only [List.getElem?_cons_zero, Option.some.injEq] at h1 h2
      subst h1; subst h2
      simp [List.lookup]
    | succ i =>
      simp only [List.getElem?_cons_succ] at h1 h2
      have hne : (k == k0) = false := by
        rw [beq_eq_false_iff_ne]
        rintro rfl
        exact hn'.1 (List.mem_of_getElem? h1)
      simp only [List.zip_cons_cons, List.lookup, hne]
      exact lookup_zip ks vs hn'.2 i k v h1 h2

theorem lookup_zip_none {β : Type} [BEq β] [LawfulBEq β] {γ : Type} : ∀ (ks : List β) (vs : List γ) (k : β), k ∉ ks →
    (ks.zip vs).lookup k = none
  | [], _, _, _ => rfl
  | _ :: _, [], _, _ => rfl
  | k0 :: ks, v0 :: vs, k, h => by
    simp only [List.mem_cons, not_or] at h
    have : (k == k0) = false := by rw [beq_eq_false_iff_ne]; exact h.1
    simp only [List.zip_cons_cons, List.lookup, this]
    exact lookup_zip_none ks vs k h.2

end Verif.Compact
