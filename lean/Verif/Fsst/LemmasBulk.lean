import Verif.Fsst.LemmasDec
import Verif.Fsst.Spec
/-! The symbol table on disk, and whole arrays. -/
namespace Verif.Fsst

theorem drop_flatMap {α : Type} (f : α → List Nat) (k : Nat) (l : List α) (h : ∀ x ∈ l, (f x).length = k) (i : Nat) :
    (l.flatMap f).drop (k * i) = (l.drop i).flatMap f := by
  induction l generalizing i with
  | nil => simp
  | cons a l ih =>
    cases i with
    | zero => simp
    | succ i =>
      rw [List.flatMap_cons, List.drop_succ_cons, ← ih (fun x hx => h x (List.mem_cons_of_mem _ hx)) i]
      have ha := h a (List.mem_cons_self ..)
      rw [List.drop_append, ha, List.drop_eq_nil_of_le (by rw [ha, Nat.mul_succ]; omega), List.nil_append]
      congr 1
      rw [Nat.mul_succ]; omega

theorem length_flatMap_const {α : Type} (f : α → List Nat) (k : Nat) (l : List α) (h : ∀ x ∈ l, (f x).length = k) :
    (l.flatMap f).length = k * l.length := by
  induction l with
  | nil => simp
  | cons a l ih =>
    rw [List.flatMap_cons, List.length_append, h a (List.mem_cons_self ..), ih (fun x hx => h x (List.mem_cons_of_mem _ hx)),
      List.length_cons, Nat.mul_succ]
    omega

/-- The table is written and read back. -/
theorem export_ok {st : Table} (hn : st.n ≤ 255) (switch : Bool) :
    ∃ tb, st.export switch = .ok tb ∧ ∀ inLen inOffs cap capOffs, (if switch then inLen * 3 else inLen) ≤ cap → inOffs ≤ capOffs →
      ∃ d, decoderInit tb inLen inOffs cap capOffs = .ok d ∧ DecOk st d ∧ d.on = switch := by
  unfold Table.export
  simp only
  generalize hinfo : 0x46535354 * 2 ^ 32 + (if switch then 1 else 0) * 2 ^ 24 + st.suffixLim % 256 * 2 ^ 16 +
    st.terminator % 256 * 2 ^ 8 + st.n % 256 = info
  generalize hsy : (List.range st.n).flatMap (fun i => leBytes 8 (st.symbols i).val) = sy
  generalize hle : (List.range st.n).map (fun i => (st.symbols i).len % 256) = le
  have lsy : sy.length = 8 * st.n := by
    rw [← hsy, length_flatMap_const _ 8 _ (fun x _ => length_leBytes _ _), List.length_range]
  have lle : le.length = st.n := by rw [← hle]; simp
  have lbody : (leBytes 8 info ++ sy ++ le).length = 8 + 9 * st.n := by
    simp only [List.length_append, length_leBytes, lsy, lle]; omega
  rw [if_pos (by omega)]
  have b1 : (if switch then 1 else 0) < 2 := by split <;> omega
  have ilt : info < 2 ^ 64 := by rw [← hinfo]; omega
  refine ⟨_, rfl, fun inLen inOffs cap capOffs hcap hoffs => ?_⟩
  generalize htb : leBytes 8 info ++ sy ++ le ++ List.replicate (2312 - (leBytes 8 info ++ sy ++ le).length) 0 = tb
  have ltb : tb.length = 2312 := by
    rw [← htb, List.length_append, List.length_replicate]; omega
  have t8 : tb.take 8 = leBytes 8 info := by
    rw [← htb, List.append_assoc, List.append_assoc,
      List.take_append_of_le_length (by rw [length_leBytes]; omega), List.take_of_length_le (by rw [length_leBytes]; omega)]
  have hw : leWord (tb.take 8) = info := by
    rw [t8, leWord_leBytes, show (256 : Nat) ^ 8 = 2 ^ 64 by decide, Nat.mod_eq_of_lt ilt]
  have hmagic : info / 2 ^ 32 = 0x46535354 := by rw [← hinfo]; omega
  have hon : decide (info / 2 ^ 24 % 2 = 1) = switch := by
    have q : info / 2 ^ 24 = 0x46535354 * 256 + (if switch then 1 else 0) := by rw [← hinfo]; omega
    rw [q]
    cases switch <;> decide
  have hnn : info % 256 = st.n := by rw [← hinfo]; omega
  unfold decoderInit
  rw [if_neg (by omega), hw]
  simp only
  rw [hmagic, if_neg (by decide), if_neg (by omega), hon, hnn]
  have c1 : ¬ (switch = true ∧ cap < inLen * 3) := by
    rintro ⟨h1, h2⟩; subst h1; simp only [if_true] at hcap; omega
  have c2 : ¬ (switch = false ∧ cap < inLen) := by
    rintro ⟨h1, h2⟩; subst h1; simp only [Bool.false_eq_true, if_false] at hcap; omega
  rw [if_neg c1, if_neg c2, if_neg (by omega)]
  refine ⟨_, rfl, ?_, rfl⟩
  intro c hc hv hlen
  simp only
  rw [if_pos hc, if_pos hc]
  constructor
  · have : (tb.drop (8 + 8 * c)).take 8 = leBytes 8 (st.symbols c).val := by
      have d8 : tb.drop 8 = sy ++ (le ++ List.replicate (2312 - (leBytes 8 info ++ sy ++ le).length) 0) := by
        rw [← htb, List.append_assoc, List.append_assoc, List.drop_append_of_le_length (by rw [length_leBytes]; omega),
          List.drop_eq_nil_of_le (by rw [length_leBytes]; omega), List.nil_append]
      have dr : (List.range st.n).drop c = c :: (List.range st.n).drop (c + 1) := by
        rw [List.drop_eq_getElem_cons (by simpa using hc)]; simp
      rw [← List.drop_drop, d8, List.drop_append_of_le_length (by omega), ← hsy,
        drop_flatMap _ 8 _ (fun x _ => length_leBytes _ _), dr, List.flatMap_cons, List.append_assoc,
        List.take_append_of_le_length (by rw [length_leBytes]; omega), List.take_of_length_le (by rw [length_leBytes]; omega)]
    rw [this, leWord_leBytes, show (256 : Nat) ^ 8 = 2 ^ 64 by decide, Nat.mod_eq_of_lt hv]
  · have : tb[8 + 8 * st.n + c]? = some (st.symbols c).len := by
      rw [← htb, List.getElem?_append_left (by omega), List.getElem?_append_right (by simp only [List.length_append, length_leBytes]; omega)]
      simp only [List.length_append, length_leBytes, lsy]
      rw [show 8 + 8 * st.n + c - (8 + 8 * st.n) = c by omega, ← hle]
      simp [hc]; omega
    rw [List.getD_eq_getElem?_getD, this]
    rfl

/-- Offsets whose ranges hold codes for the strings. -/
inductive CodesAt (st : Table) (bytes : List Nat) : Nat → List Nat → List (List Nat) → Prop
  | nil (a : Nat) (ha : a ≤ bytes.length) : CodesAt st bytes a [] []
  | cons {a b : Nat} {offs cs s : List Nat} {ss : List (List Nat)} (hab : b = a + cs.length) (hb : b ≤ bytes.length)
      (hcs : (bytes.drop a).take cs.length = cs) (h : Codes st cs s) : CodesAt st bytes b offs ss → CodesAt st bytes a (b :: offs) (s :: ss)

theorem CodesAt.prefix {st : Table} {bytes more : List Nat} {a : Nat} {offs : List Nat} {ss : List (List Nat)}
    (h : CodesAt st bytes a offs ss) : CodesAt st (bytes ++ more) a offs ss := by
  induction h with
  | nil a ha => exact .nil a (by rw [List.length_append]; omega)
  | @cons a b offs cs s ss hab hb hcs h _ ih =>
    refine .cons hab (by rw [List.length_append]; omega) ?_ h ih
    rw [List.drop_append_of_le_length (by omega), List.take_append_of_le_length (by rw [List.length_drop]; omega)]
    exact hcs

/-- A whole array is compressed. -/
theorem compressBulk_ok {st : Table} (hst : FinalOk st) (buf : List Nat) (hb : ∀ b ∈ buf, b < 256) (cap : Nat) (offs : List Nat)
    (a : Nat) (out : List Nat) (ho : OffsetsOk buf.length (a :: offs)) (hcap : out.length + 2 * (buf.length - a) ≤ cap) (h31 : cap < 2 ^ 31) :
    ∃ fin co, compressBulk st buf cap (a :: offs) out = .ok (out ++ fin, co) ∧
      CodesAt st (out ++ fin) out.length co (strings buf (a :: offs)) ∧ fin.length ≤ 2 * (buf.length - a) := by
  induction offs generalizing a out with
  | nil => exact ⟨[], [], by simp [compressBulk], .nil _ (by simp), by simp⟩
  | cons b offs ih =>
    obtain ⟨hab, ho'⟩ := ho
    have hbl : b ≤ buf.length := by
      clear ih hcap
      clear hab
      induction offs generalizing b with
      | nil => exact ho'
      | cons c offs ih => exact Nat.le_trans ho'.1 (ih c ho'.2)
    have hsl : slice buf a (max a b) = .ok ((buf.drop a).take (b - a)) := by
      unfold slice; rw [Nat.max_eq_right hab, if_pos ⟨hab, hbl⟩]
    have hlen : ((buf.drop a).take (b - a)).length = b - a := by rw [List.length_take, List.length_drop]; omega
    obtain ⟨cs, e, hcs, hl⟩ := encString_ok hst cap ((buf.drop a).take (b - a)).length (List.replicate 520 0) ((buf.drop a).take (b - a)) out
      (fun x hx => hb x (List.mem_of_mem_drop (List.mem_of_mem_take hx)))
      (fun x hx => by rw [List.eq_of_mem_replicate hx]; omega) List.length_replicate (Nat.le_refl _) (by omega)
    have hi : asI32 (out ++ cs).length = .ok (out ++ cs).length := by
      unfold asI32; rw [if_pos (by rw [List.length_append]; omega)]
    obtain ⟨fin, co, e', hco, hfin⟩ := ih b (out ++ cs) ho' (by rw [List.length_append]; omega)
    refine ⟨cs ++ fin, (out ++ cs).length :: co, ?_, ?_, by rw [List.length_append]; omega⟩
    · simp only [compressBulk, bind, Except.bind, hsl, e, hi, e', List.append_assoc]
    · rw [← List.append_assoc]
      refine .cons (by rw [List.length_append]) (by rw [List.length_append (bs := fin)]; omega) ?_ hcs hco
      rw [List.append_assoc, List.drop_left, List.take_left]

/-- A whole array is decompressed. -/
theorem decompressBulk_ok {st : Table} (hn : st.n ≤ 255) {d : Decoder} (hd : DecOk st d) {bytes : List Nat} (cap a : Nat)
    {offs : List Nat} {ss : List (List Nat)} (h : CodesAt st bytes a offs ss) (out : List Nat)
    (hcap : out.length + 8 * (bytes.length - a) ≤ cap) (h31 : out.length + ss.flatten.length < 2 ^ 31) :
    ∃ co, decompressBulk d bytes cap (a :: offs) out = .ok (out ++ ss.flatten, co) ∧ out.length :: co = offsetsFrom out.length ss := by
  induction h generalizing out with
  | nil a ha => exact ⟨[], by simp [decompressBulk], rfl⟩
  | @cons a b offs cs s ss hab hb hcs h _ ih =>
    have hsplit : bytes.drop a = cs ++ bytes.drop b := by
      rw [hab, ← List.drop_drop]
      conv => lhs; rw [← List.take_append_drop cs.length (bytes.drop a), hcs]
    have e := decLoop_ok hn hd cap (b - a + 1) h a out hsplit (by omega) (by omega)
    rw [← hab] at e
    have hsl : s.length ≤ 8 * cs.length := by
      clear e hcs hsplit ih hab
      induction h with
      | nil => simp
      | sym hc hlo hhi hv _ ih =>
        rw [List.length_append, Symbol.bytes, length_leBytes, List.length_cons]
        simp only [List.flatten_cons, List.length_append] at h31 ih
        have := ih (by omega)
        omega
      | esc hb' _ ih =>
        simp only [List.flatten_cons, List.length_append, List.length_cons] at h31 ih ⊢
        have := ih (by omega)
        omega
    simp only [List.flatten_cons, List.length_append] at h31
    obtain ⟨co, e', hco⟩ := ih (out ++ s) (by rw [List.length_append]; omega) (by rw [List.length_append]; omega)
    have hi : asI32 (out ++ s).length = .ok (out ++ s).length := by
      unfold asI32; rw [if_pos (by rw [List.length_append]; omega)]
    refine ⟨(out ++ s).length :: co, ?_, ?_⟩
    · simp only [decompressBulk, bind, Except.bind, e, hi, e', List.flatten_cons, List.append_assoc]
    · rw [hco, List.length_append]; rfl

/-- The strings of a compressed array, taken in any order, and their codes. -/
theorem codes_of_strings {st : Table} {bytes : List Nat} {a : Nat} {offs : List Nat} {ss : List (List Nat)}
    (h : CodesAt st bytes a offs ss) :
    (strings bytes (a :: offs)).length = ss.length ∧
    ∀ i, i < ss.length → Codes st ((strings bytes (a :: offs)).getD i []) (ss.getD i []) := by
  induction h with
  | nil a ha => exact ⟨rfl, fun i hi => by simp at hi⟩
  | @cons a b offs cs s ss hab hb hcs h _ ih =>
    obtain ⟨h1, h2⟩ := ih
    refine ⟨by simp only [strings, List.length_cons, h1], fun i hi => ?_⟩
    cases i with
    | zero =>
      simp only [strings, List.getD_cons_zero]
      rw [show b - a = cs.length by omega, hcs]; exact h
    | succ i =>
      simp only [strings, List.getD_cons_succ]
      exact h2 i (by simp at hi; omega)

/-- Strings of codes put one after the other. -/
theorem codesAt_flatten {st : Table} (pre : List Nat) (l : List (List Nat × List Nat)) (h : ∀ x ∈ l, Codes st x.1 x.2) :
    ∃ offs, offsetsFrom pre.length (l.map (·.1)) = pre.length :: offs ∧
      CodesAt st (pre ++ (l.map (·.1)).flatten) pre.length offs (l.map (·.2)) := by
  induction l generalizing pre with
  | nil => exact ⟨[], rfl, .nil _ (by simp)⟩
  | cons x l ih =>
    obtain ⟨cs, s⟩ := x
    obtain ⟨offs, e, hc⟩ := ih (pre ++ cs) (fun y hy => h y (List.mem_cons_of_mem _ hy))
    rw [List.length_append] at e hc
    refine ⟨(pre.length + cs.length) :: offs, ?_, ?_⟩
    · simp only [List.map_cons, offsetsFrom, e]
    · simp only [List.map_cons, List.flatten_cons]
      rw [← List.append_assoc]
      refine .cons rfl (by simp only [List.length_append]; omega) ?_ (h _ (List.mem_cons_self ..)) hc
      rw [List.append_assoc, List.drop_left, List.take_left]

theorem length_offsetsFrom (a : Nat) (l : List (List Nat)) : (offsetsFrom a l).length = l.length + 1 := by
  induction l generalizing a with
  | nil => rfl
  | cons s l ih => simp only [offsetsFrom, List.length_cons, ih]

end Verif.Fsst
