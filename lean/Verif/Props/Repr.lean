import Verif.Spec.PyExpr
import Verif.Props.Params
import Verif.Props.Keyed

set_option linter.all false

/-!
# C117: the `repr` of an estimator is the call that builds it
-/

namespace Precise

open Spec

/-! ### Digits -/

theorem digit_facts : ∀ d < 10, (digitChar d).isDigit = true ∧ (digitChar d).toNat - 48 = d := by decide

theorem hex_facts : ∀ d < 16, hexDigit (digitChar d) = some d := by decide

theorem natVal_snoc (t : List Char) (c : Char) : natVal (t ++ [c]) = 10 * natVal t + (c.toNat - 48) := by
  simp [natVal]

theorem showNat_facts (n : ℕ) : showNat n ≠ [] ∧ (∀ c ∈ showNat n, c.isDigit = true) ∧ natVal (showNat n) = n := by
  induction n using Nat.strongRecOn with
  | ind n ih =>
    rw [showNat]
    split
    · next h =>
      obtain ⟨a, b⟩ := digit_facts n h
      refine ⟨by simp, by simpa using a, ?_⟩
      simp [natVal, b]
    · next h =>
      obtain ⟨i1, i2, i3⟩ := ih (n / 10) (by omega)
      obtain ⟨a, b⟩ := digit_facts (n % 10) (by omega)
      refine ⟨by simp, fun c hc => ?_, ?_⟩
      · rw [List.mem_append, List.mem_singleton] at hc
        rcases hc with hc | rfl
        · exact i2 c hc
        · exact a
      · rw [natVal_snoc, i3, b]; omega

theorem isDigits_showNat (n : ℕ) : isDigits (showNat n) = true := by
  obtain ⟨h1, h2, -⟩ := showNat_facts n
  unfold isDigits
  rw [Bool.and_eq_true]
  refine ⟨by simpa using h1, by rw [List.all_eq_true]; exact h2⟩

theorem readNum_int (F : FloatText) (n : ℤ) : readNum F (showInt n) = some (.int n) := by
  obtain ⟨h1, h2, h3⟩ := showNat_facts n.natAbs
  unfold showInt
  split
  · next h =>
    unfold readNum
    simp only [isDigits_showNat, if_true, h3]
    congr 2; omega
  · next h =>
    cases hs : showNat n.natAbs with
    | nil => exact absurd hs h1
    | cons c r =>
      have hc : c ≠ '-' := by
        have := h2 c (by rw [hs]; exact List.mem_cons_self ..)
        rintro rfl; revert this; decide
      unfold readNum
      split
      · next heq => rw [List.cons.injEq] at heq; exact absurd heq.1 hc
      · rw [← hs, isDigits_showNat, if_pos rfl, h3]
        congr 2; omega

theorem readNum_float (F : FloatText) {x : ℝ} (hx : x ∈ F.floats) : readNum F (F.text x) = some (.float x) := by
  obtain ⟨c, hc, hp⟩ := F.notInt x hx
  have hd : c.isDigit = false := by rcases hp with rfl | rfl <;> decide
  have hm : c ≠ '-' := by rcases hp with rfl | rfl <;> decide
  have key : ∀ d : List Char, c ∈ d → isDigits d = false := by
    intro d hcd
    unfold isDigits
    rw [Bool.and_eq_false_iff]; right
    rw [List.all_eq_false]
    exact ⟨c, hcd, by rw [hd]; decide⟩
  unfold readNum
  split
  · next d heq =>
    rw [heq] at hc
    have : c ∈ d := by
      rcases List.mem_cons.1 hc with h | h
      · exact absurd h hm
      · exact h
    rw [key d this, F.roundtrip x hx]; rfl
  · rw [key _ hc, F.roundtrip x hx]; rfl

/-! ### Strings -/

theorem showHex_length (w n : ℕ) : (showHex w n).length = w := by
  induction w generalizing n with
  | zero => rfl
  | succ w ih => simp [showHex, ih]

theorem hexVal_showHex (w n : ℕ) (h : n < 16 ^ w) : hexVal (showHex w n) = some n := by
  induction w generalizing n with
  | zero => simp at h; subst h; rfl
  | succ w ih =>
    have h1 := ih (n / 16) (by rw [pow_succ] at h; omega)
    unfold hexVal at h1 ⊢
    rw [showHex, List.foldl_append, h1]
    simp only [List.foldl_cons, List.foldl_nil, Option.bind_some, hex_facts (n % 16) (by omega), Option.map_some]
    congr 1; omega

theorem char_lt (c : Char) : c.toNat < 16 ^ 8 := by
  have : c.toNat < UInt32.size := c.val.toNat_lt
  exact this

theorem readStr_hex (q e : Char) (w : ℕ) (hw : (e = 'x' ∧ w = 2) ∨ (e = 'u' ∧ w = 4) ∨ (e = 'U' ∧ w = 8)) (hq : '\\' ≠ q) (c : Char)
    (hc : c.toNat < 16 ^ w) (n : ℕ) (t : List Char) :
    readStr q (n + 1) ('\\' :: e :: (showHex w c.toNat ++ t)) = (readStr q n t).map fun p => (c :: p.1, p.2) := by
  rw [readStr]
  rw [if_neg hq, if_pos rfl]
  have e1 : ¬ (e = '\\' ∨ e = '\'' ∨ e = '"') := by rcases hw with ⟨rfl, _⟩ | ⟨rfl, _⟩ | ⟨rfl, _⟩ <;> decide
  have e2 : e ≠ 't' ∧ e ≠ 'n' ∧ e ≠ 'r' := by rcases hw with ⟨rfl, _⟩ | ⟨rfl, _⟩ | ⟨rfl, _⟩ <;> decide
  have e3 : (if e = 'x' then 2 else if e = 'u' then 4 else if e = 'U' then 8 else 0) = w := by
    rcases hw with ⟨rfl, rfl⟩ | ⟨rfl, rfl⟩ | ⟨rfl, rfl⟩ <;> rfl
  have e4 : w ≠ 0 := by omega
  simp only [e1, e2.1, e2.2.1, e2.2.2, if_false, e3, e4]
  rw [List.take_left' (showHex_length w _), List.drop_left' (showHex_length w _), hexVal_showHex w _ hc, Option.bind_some,
    Char.ofNat_toNat]

theorem readStr_plain {q c : Char} (h1 : c ≠ q) (h2 : c ≠ '\\') (n : ℕ) (r : List Char) :
    readStr q (n + 1) (c :: r) = (readStr q n r).map fun p => (c :: p.1, p.2) := by
  rw [readStr.eq_def]
  simp only [h1, h2, if_false]

theorem readStr_end (q : Char) (n : ℕ) (r : List Char) : readStr q (n + 1) (q :: r) = some ([], r) := by
  rw [readStr.eq_def]
  simp only [if_true]

theorem readStr_char (pr : Char → Bool) (q : Char) (hq : q = '\'' ∨ q = '"') (c : Char) (n : ℕ) (t : List Char) :
    readStr q (n + 1) (showChar pr q c ++ t) = (readStr q n t).map fun p => (c :: p.1, p.2) := by
  have hq' : '\\' ≠ q := by rcases hq with rfl | rfl <;> decide
  unfold showChar
  split
  · next h =>
    have : c = '\\' ∨ c = '\'' ∨ c = '"' := by
      rcases h with rfl | h
      · exact Or.inr hq
      · exact Or.inl h
    simp only [List.cons_append, List.nil_append]
    rw [readStr, if_neg hq', if_pos rfl]
    simp only [this, if_true]
  next h =>
  push Not at h
  split
  · next h1 =>
    subst h1
    simp only [List.cons_append, List.nil_append]
    rw [readStr, if_neg hq', if_pos rfl]; rfl
  split
  · next h1 =>
    subst h1
    simp only [List.cons_append, List.nil_append]
    rw [readStr, if_neg hq', if_pos rfl]; rfl
  split
  · next h1 =>
    subst h1
    simp only [List.cons_append, List.nil_append]
    rw [readStr, if_neg hq', if_pos rfl]; rfl
  split
  · simp only [List.cons_append, List.nil_append]
    exact readStr_plain h.1 h.2 n t
  split
  · simp only [List.cons_append, List.nil_append]
    exact readStr_plain h.1 h.2 n t
  split
  · next h1 => exact readStr_hex q 'x' 2 (Or.inl ⟨rfl, rfl⟩) hq' c (by norm_num; exact h1) n t
  split
  · next h1 => exact readStr_hex q 'u' 4 (Or.inr (Or.inl ⟨rfl, rfl⟩)) hq' c (by norm_num; exact h1) n t
  · exact readStr_hex q 'U' 8 (Or.inr (Or.inr ⟨rfl, rfl⟩)) hq' c (char_lt c) n t

theorem readStr_chars (pr : Char → Bool) (q : Char) (hq : q = '\'' ∨ q = '"') (s : List Char) (n : ℕ) (hn : s.length < n) (t : List Char) :
    readStr q n (s.flatMap (showChar pr q) ++ q :: t) = some (s, t) := by
  induction s generalizing n with
  | nil =>
    cases n with
    | zero => simp at hn
    | succ n =>
      simp only [List.flatMap_nil, List.nil_append]
      exact readStr_end q n t
  | cons c s ih =>
    cases n with
    | zero => simp at hn
    | succ n =>
      rw [List.flatMap_cons, List.append_assoc, readStr_char pr q hq, ih n (by simpa using hn)]; rfl

theorem quote_cases (s : List Char) : quoteOf s = '\'' ∨ quoteOf s = '"' := by
  unfold quoteOf; split
  · exact Or.inr rfl
  · exact Or.inl rfl

theorem showChar_length (pr : Char → Bool) (q c : Char) : 1 ≤ (showChar pr q c).length := by
  unfold showChar
  repeat' split
  all_goals simp

theorem flatMap_length (pr : Char → Bool) (q : Char) (s : List Char) : s.length ≤ (s.flatMap (showChar pr q)).length := by
  induction s with
  | nil => simp
  | cons c s ih =>
    rw [List.flatMap_cons, List.length_append, List.length_cons]
    have := showChar_length pr q c
    omega

theorem readStr_show (pr : Char → Bool) (s t : List Char) :
    readStr (quoteOf s) (((s.flatMap (showChar pr (quoteOf s)) ++ [quoteOf s]) ++ t).length + 1) ((s.flatMap (showChar pr (quoteOf s)) ++ [quoteOf s]) ++ t)
      = some (s, t) := by
  rw [List.append_assoc, List.singleton_append]
  exact readStr_chars pr _ (quote_cases s) s _ (by
    have := flatMap_length pr (quoteOf s) s
    rw [List.length_append]; omega) t

/-! ### Values -/

/-- What follows a value in an argument list. -/
def Ends (t : List Char) : Prop := t = [] ∨ ∃ r, t = ',' :: r ∨ t = ')' :: r ∨ t = ']' :: r

theorem while_append {p : Char → Bool} {s t : List Char} (hs : ∀ c ∈ s, p c = true) (ht : ∀ c r, t = c :: r → p c = false) :
    (s ++ t).takeWhile p = s ∧ (s ++ t).dropWhile p = t := by
  induction s with
  | nil =>
    cases t with
    | nil => simp
    | cons c r => simp [ht c r rfl]
  | cons c s ih =>
    have hc := hs c (List.mem_cons_self ..)
    obtain ⟨i1, i2⟩ := ih fun d hd => hs d (List.mem_cons_of_mem _ hd)
    simp [hc, i1, i2]

theorem Ends.num {t : List Char} (h : Ends t) : ∀ c r, t = c :: r → numChar c = false := by
  rintro c r rfl
  rcases h with h | ⟨r', h | h | h⟩
  · cases h
  all_goals rw [List.cons.injEq] at h; rw [h.1]; decide

theorem Ends.ident {t : List Char} (h : Ends t) : ∀ c r, t = c :: r → identChar c = false := by
  rintro c r rfl
  rcases h with h | ⟨r', h | h | h⟩
  · cases h
  all_goals rw [List.cons.injEq] at h; rw [h.1]; decide

/-- A value Python can read back: every float is one of the format. -/
def Literal (F : FloatText) : PArg → Prop
  | .float x => x ∈ F.floats
  | _ => True

theorem showInt_numeric (n : ℤ) : (∀ c ∈ showInt n, numChar c = true) ∧ ∃ c r, showInt n = c :: r ∧ (c.isDigit || c == '-') = true := by
  obtain ⟨h1, h2, -⟩ := showNat_facts n.natAbs
  have hd : ∀ c ∈ showNat n.natAbs, numChar c = true := fun c hc => by simp [numChar, h2 c hc]
  unfold showInt
  split
  · refine ⟨fun c hc => ?_, '-', _, rfl, rfl⟩
    rcases List.mem_cons.1 hc with rfl | hc
    · decide
    · exact hd c hc
  · refine ⟨hd, ?_⟩
    cases hs : showNat n.natAbs with
    | nil => exact absurd hs h1
    | cons c r => exact ⟨c, r, rfl, by rw [h2 c (by rw [hs]; exact List.mem_cons_self ..)]; rfl⟩

theorem parseVal_num (F : FloatText) {s t : List Char} {v : PArg} (hs : ∀ c ∈ s, numChar c = true)
    (hh : ∃ c r, s = c :: r ∧ (c.isDigit || c == '-') = true) (hv : readNum F s = some v) (ht : Ends t) (n : ℕ) :
    parseVal F (n + 1) (s ++ t) = some (.arg v, t) := by
  obtain ⟨c, r, rfl, hc⟩ := hh
  obtain ⟨w1, w2⟩ := while_append hs ht.num
  rw [List.cons_append] at w1 w2 ⊢
  rw [parseVal]
  have hq : ¬ (c = '\'' ∨ c = '"') := by
    rintro (rfl | rfl) <;> revert hc <;> decide
  simp only [hq, if_false, hc, if_true, w1, w2, hv, Option.map_some]

theorem parseVal_word (F : FloatText) (w : List Char) (v : PArg)
    (hw : (w = "True".toList ∧ v = .bool true) ∨ (w = "False".toList ∧ v = .bool false) ∨ (w = "None".toList ∧ v = .none)) {t : List Char}
    (ht : Ends t) (n : ℕ) : parseVal F (n + 1) (w ++ t) = some (.arg v, t) := by
  have hs : ∀ c ∈ w, identChar c = true := by
    rcases hw with ⟨rfl, _⟩ | ⟨rfl, _⟩ | ⟨rfl, _⟩ <;> decide
  obtain ⟨w1, w2⟩ := while_append hs ht.ident
  cases w with
  | nil => rcases hw with ⟨h, _⟩ | ⟨h, _⟩ | ⟨h, _⟩ <;> exact absurd h (by decide)
  | cons c r =>
    have hc : c = 'T' ∨ c = 'F' ∨ c = 'N' := by
      rcases hw with ⟨h, _⟩ | ⟨h, _⟩ | ⟨h, _⟩
      · exact Or.inl (List.cons.inj h).1
      · exact Or.inr (Or.inl (List.cons.inj h).1)
      · exact Or.inr (Or.inr (List.cons.inj h).1)
    rw [List.cons_append] at w1 w2 ⊢
    rw [parseVal]
    have c1 : ¬ (c = '\'' ∨ c = '"') := by rcases hc with rfl | rfl | rfl <;> decide
    have c2 : ¬ ((c.isDigit || c == '-') = true) := by rcases hc with rfl | rfl | rfl <;> decide
    have c3 : c ≠ '[' := by rcases hc with rfl | rfl | rfl <;> decide
    have c4 : identStart c = true := by rcases hc with rfl | rfl | rfl <;> decide
    simp only [c1, c2, c3, c4, if_false, if_true, w1, w2, Bool.false_eq_true]
    rcases hw with ⟨h, rfl⟩ | ⟨h, rfl⟩ | ⟨h, rfl⟩
    · rw [if_pos h]
    · rw [if_neg (by rw [h]; decide), if_pos h]
    · rw [if_neg (by rw [h]; decide), if_neg (by rw [h]; decide), if_pos h]

theorem parseVal_str (F : FloatText) (pr : Char → Bool) (s t : List Char) (n : ℕ) :
    parseVal F (n + 1) (showStr pr s ++ t) = some (.arg (.str (String.ofList s)), t) := by
  unfold showStr
  rw [List.cons_append, parseVal]
  simp only [quote_cases s, if_true]
  rw [readStr_show]; rfl

theorem parseVal_arg (F : FloatText) (pr : Char → Bool) (v : PArg) (hv : Literal F v) {t : List Char} (ht : Ends t) (n : ℕ) :
    parseVal F (n + 1) (v.repr F pr ++ t) = some (.arg v, t) := by
  cases v with
  | float x => exact parseVal_num F (F.numeric x hv) (F.starts x hv) (readNum_float F hv) ht n
  | int k => exact parseVal_num F (showInt_numeric k).1 (showInt_numeric k).2 (readNum_int F k) ht n
  | bool b => cases b with
    | true => exact parseVal_word F _ _ (Or.inl ⟨rfl, rfl⟩) ht n
    | false => exact parseVal_word F _ _ (Or.inr (Or.inl ⟨rfl, rfl⟩)) ht n
  | str s =>
    have := parseVal_str F pr s.toList t n
    rwa [String.ofList_toList] at this
  | none => exact parseVal_word F _ _ (Or.inr (Or.inr ⟨rfl, rfl⟩)) ht n

/-! ### Argument lists and calls -/

/-- The name of a keyword: identifier characters only. -/
def IsName (k : List Char) : Prop := k ≠ [] ∧ ∀ c ∈ k, identChar c = true

/-- A printed argument: its name, its text, its value. -/
abbrev Item := String × List Char × PyV

def Item.text (i : Item) : List Char := i.1.toList ++ '=' :: i.2.1

theorem parseArgs_join (F : FloatText) (K : ℕ) (items : List Item) (hk : ∀ i ∈ items, IsName i.1.toList)
    (hv : ∀ i ∈ items, ∀ m, K < m → ∀ t, Ends t → parseVal F m (i.2.1 ++ t) = some (i.2.2, t)) (n : ℕ) (hn : K + items.length < n)
    (t : List Char) (sp : ℕ) :
    parseArgs F n (List.replicate sp ' ' ++ joinComma (items.map Item.text) ++ ')' :: t) = some (items.map fun i => (i.1, i.2.2), t) := by
  have hskip : ∀ (sp : ℕ) (c : Char) (r : List Char), c ≠ ' ' → skip (List.replicate sp ' ' ++ c :: r) = c :: r := by
    intro sp c r hc
    unfold skip
    induction sp with
    | zero => simp [hc]
    | succ sp ih => rw [List.replicate_succ, List.cons_append, List.dropWhile_cons_of_pos (by decide)]; exact ih
  have hspace : identChar ' ' = false := by decide
  induction items generalizing n sp with
  | nil =>
    cases n with
    | zero => simp at hn
    | succ n =>
      rw [parseArgs]
      simp only [List.map_nil, joinComma, List.append_nil]
      rw [hskip sp ')' t (by decide)]
      simp
  | cons i items ih =>
    cases n with
    | zero => simp at hn
    | succ n =>
      obtain ⟨k1, k2⟩ := hk i (List.mem_cons_self ..)
      -- the text of the rest of the list
      obtain ⟨tail, htail, hcase⟩ : ∃ tail, joinComma ((i :: items).map Item.text) ++ ')' :: t = i.text ++ tail ∧
          ((items = [] ∧ tail = ')' :: t) ∨ (items ≠ [] ∧ tail = ',' :: (List.replicate 1 ' ' ++ joinComma (items.map Item.text) ++ ')' :: t))) := by
        cases items with
        | nil => exact ⟨_, rfl, Or.inl ⟨rfl, rfl⟩⟩
        | cons j items =>
          refine ⟨_, ?_, Or.inr ⟨by simp, rfl⟩⟩
          simp only [List.map_cons, joinComma, List.append_assoc, show ", ".toList = [',', ' '] from rfl, List.replicate_one, List.cons_append,
            List.nil_append]
      rw [List.append_assoc, htail]
      cases hkn : i.1.toList with
      | nil => exact absurd hkn k1
      | cons c r =>
        have hc : identChar c = true := k2 c (by rw [hkn]; exact List.mem_cons_self ..)
        have hc1 : c ≠ ' ' := by rintro rfl; rw [hspace] at hc; cases hc
        have hc2 : c ≠ ')' := by rintro rfl; revert hc; decide
        rw [parseArgs]
        have hform : i.text ++ tail = c :: (r ++ '=' :: (i.2.1 ++ tail)) := by
          unfold Item.text; rw [hkn]; simp
        rw [hform, hskip sp c _ hc1]
        simp only [hc2, if_false]
        have hw := while_append (p := identChar) (s := c :: r) (t := '=' :: (i.2.1 ++ tail)) (by rw [← hkn]; exact k2)
          (by rintro d r' h; rw [List.cons.injEq] at h; rw [← h.1]; decide)
        rw [List.cons_append] at hw
        rw [hw.1, hw.2]
        simp only []
        have hE : Ends tail := by
          rcases hcase with ⟨_, h⟩ | ⟨_, h⟩
          · exact Or.inr ⟨_, Or.inr (Or.inl h)⟩
          · exact Or.inr ⟨_, Or.inl h⟩
        rw [hv i (List.mem_cons_self ..) n (by rw [List.length_cons] at hn; omega) tail hE, Option.bind_some]
        have hname : String.ofList (c :: r) = i.1 := by rw [← hkn, String.ofList_toList]
        rcases hcase with ⟨rfl, rfl⟩ | ⟨hne, rfl⟩
        · simp only [hname, List.map_cons, List.map_nil]
        · simp only []
          rw [ih (fun j hj => hk j (List.mem_cons_of_mem _ hj)) (fun j hj => hv j (List.mem_cons_of_mem _ hj)) n
            (by rw [List.length_cons] at hn; omega) 1]
          simp [hname]

theorem parseVal_call (F : FloatText) (name : String) (hname : IsName name.toList) (hstart : ∀ c r, name.toList = c :: r → identStart c = true)
    (hres : name ≠ "True" ∧ name ≠ "False" ∧ name ≠ "None") (K : ℕ) (items : List Item) (hk : ∀ i ∈ items, IsName i.1.toList)
    (hv : ∀ i ∈ items, ∀ m, K < m → ∀ t, Ends t → parseVal F m (i.2.1 ++ t) = some (i.2.2, t)) (n : ℕ) (hn : K + items.length < n) (t : List Char) :
    parseVal F (n + 1) (name.toList ++ '(' :: (joinComma (items.map Item.text) ++ [')']) ++ t)
      = (applyName name (items.map fun i => (i.1, i.2.2))).map fun v => (v, t) := by
  obtain ⟨h1, h2⟩ := hname
  have htxt : name.toList ++ '(' :: (joinComma (items.map Item.text) ++ [')']) ++ t
      = name.toList ++ '(' :: (List.replicate 0 ' ' ++ joinComma (items.map Item.text) ++ ')' :: t) := by simp
  rw [htxt]
  have hw := while_append (p := identChar) (s := name.toList) (t := '(' :: (List.replicate 0 ' ' ++ joinComma (items.map Item.text) ++ ')' :: t)) h2
    (by rintro d r' h; rw [List.cons.injEq] at h; rw [← h.1]; decide)
  have tl : ∀ s : String, name.toList = s.toList → name = s := fun s h => by
    rw [← String.ofList_toList (s := name), h, String.ofList_toList]
  cases hkn : name.toList with
  | nil => exact absurd hkn h1
  | cons c r =>
    have hc := hstart c r hkn
    rw [hkn, List.cons_append] at hw
    rw [List.cons_append, parseVal]
    have c1 : ¬ (c = '\'' ∨ c = '"') := by rintro (rfl | rfl) <;> revert hc <;> decide
    have c2 : ¬ ((c.isDigit || c == '-') = true) := by
      intro h
      have : ∀ c : Char, c.isDigit = true → identStart c = false := by
        intro c hd
        have h1 : 48 ≤ c.toNat ∧ c.toNat ≤ 57 := by
          simp only [Char.isDigit, Bool.and_eq_true, decide_eq_true_eq, UInt32.le_iff_toNat_le] at hd
          exact hd
        have h2 : ¬ (c.isAlpha = true) := by
          simp only [Char.isAlpha, Char.isUpper, Char.isLower, Bool.or_eq_true, Bool.and_eq_true, decide_eq_true_eq, UInt32.le_iff_toNat_le]
          rintro (⟨h, _⟩ | ⟨h, _⟩)
          · have : 65 ≤ c.toNat := h
            omega
          · have : 97 ≤ c.toNat := h
            omega
        unfold identStart
        rw [Bool.or_eq_false_iff]
        refine ⟨by simpa using h2, ?_⟩
        rw [beq_eq_false_iff_ne]
        rintro rfl
        exact absurd h1.2 (by decide)
      rw [Bool.or_eq_true] at h
      rcases h with h | h
      · rw [this c h] at hc; cases hc
      · rw [beq_iff_eq] at h; subst h; revert hc; decide
    have c3 : c ≠ '[' := by rintro rfl; revert hc; decide
    simp only [c1, c2, c3, hc, if_false, if_true, hw.1, hw.2, Bool.false_eq_true]
    rw [← hkn, if_neg (fun h => hres.1 (tl _ h)), if_neg (fun h => hres.2.1 (tl _ h)), if_neg (fun h => hres.2.2 (tl _ h))]
    rw [parseArgs_join F K items hk hv n hn t 0, Option.bind_some, String.ofList_toList]

end Precise
