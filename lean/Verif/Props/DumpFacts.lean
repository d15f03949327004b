import Verif.Props.JsonSpec
import Verif.Mps.Dump
import Mathlib.Tactic.IntervalCases
import Mathlib.Data.List.TakeWhile
import Mathlib.Data.List.Forall2
/-
Lemmas for C86.
-/
namespace Verif.Props
open Verif.Mps.Dump

/-! ### Tokens -/

/-- The text ends or goes on with a character that ends a number. -/
def Bdry (s : List Char) : Prop := ∀ c ∈ s.head?, c = '[' ∨ c = ']' ∨ c = ',' ∨ jsonSpace c = true

/-- `x` contributes the tokens `ts`, whatever follows. -/
def Strong (x : List Char) (ts : List Tok) : Prop := ∀ rest, tokens [] (x ++ rest) = (tokens [] rest).map (ts ++ ·)

/-- `x` contributes the tokens `ts` if no number goes on behind it. -/
def Seg (x : List Char) (ts : List Tok) : Prop := ∀ rest, Bdry rest → tokens [] (x ++ rest) = (tokens [] rest).map (ts ++ ·)

theorem Strong.seg {x : List Char} {ts : List Tok} (h : Strong x ts) : Seg x ts := fun r _ => h r

theorem Strong.append {x y : List Char} {ts us : List Tok} (h : Strong x ts) (k : Strong y us) : Strong (x ++ y) (ts ++ us) := by
  intro r
  rw [List.append_assoc, h, k, Option.map_map]
  congr 1; funext z; simp

theorem Strong.appendSeg {x y : List Char} {ts us : List Tok} (h : Strong x ts) (k : Seg y us) : Seg (x ++ y) (ts ++ us) := by
  intro r hr
  rw [List.append_assoc, h, k r hr, Option.map_map]
  congr 1; funext z; simp

theorem Seg.appendStrong {x y : List Char} {ts us : List Tok} (h : Seg x ts) (k : Strong y us) (hy : y ≠ []) (b : Bdry y) :
    Strong (x ++ y) (ts ++ us) := by
  intro r
  rw [List.append_assoc, h _ (by cases y with | nil => exact absurd rfl hy | cons c y => exact b), k, Option.map_map]
  congr 1; funext z; simp

theorem strong_nil : Strong [] [] := by intro r; simp

theorem strong_char {c : Char} : (c = '[' → Strong [c] [.open_]) ∧ (c = ']' → Strong [c] [.close]) ∧
    (c = ',' → Strong [c] [.comma]) ∧ (c = ' ' → Strong [c] []) ∧ (c = '\n' → Strong [c] []) := by
  refine ⟨?_, ?_, ?_, ?_, ?_⟩ <;> rintro rfl r <;> simp [tokens, flush, jsonSpace]

theorem strong_spaces (n : Nat) : Strong (List.replicate n ' ') [] := by
  induction n with
  | zero => exact strong_nil
  | succ n ih => exact (strong_char.2.2.2.1 rfl).append ih

theorem strong_open : Strong "[".toList [.open_] := strong_char.1 rfl
theorem strong_open2 : Strong "  [".toList [.open_] :=
  (strong_char.2.2.2.1 rfl).append ((strong_char.2.2.2.1 rfl).append (strong_char.1 rfl))
theorem strong_openn : Strong "[\n".toList [.open_] := (strong_char.1 rfl).append (strong_char.2.2.2.2 rfl)
theorem strong_close : Strong "]".toList [.close] := strong_char.2.1 rfl
theorem strong_comma : Strong ", ".toList [.comma] := (strong_char.2.2.1 rfl).append (strong_char.2.2.2.1 rfl)
theorem strong_closecomma : Strong "], ".toList [.close, .comma] := (strong_char.2.1 rfl).append strong_comma
theorem strong_recordEnd (b : Bool) : Strong (recordEnd b) (.close :: if b then [] else [.comma]) := by
  cases b
  · exact (strong_char.2.1 rfl).append ((strong_char.2.2.1 rfl).append (strong_char.2.2.2.2 rfl))
  · exact (strong_char.2.1 rfl).append (strong_char.2.2.2.2 rfl)

theorem numChar_not {c : Char} (h : numChar c = true) : c ≠ '[' ∧ c ≠ ']' ∧ c ≠ ',' ∧ jsonSpace c = false := by
  refine ⟨?_, ?_, ?_, ?_⟩
  · rintro rfl; exact absurd h (by decide)
  · rintro rfl; exact absurd h (by decide)
  · rintro rfl; exact absurd h (by decide)
  · rw [Bool.eq_false_iff]
    intro hs
    simp only [jsonSpace, Bool.or_eq_true, beq_iff_eq] at hs
    rcases hs with ((rfl | rfl) | rfl) | rfl <;> exact absurd h (by decide)

theorem tokens_num : ∀ (x acc rest : List Char), (∀ c ∈ x, numChar c = true) → tokens acc (x ++ rest) = tokens (acc ++ x) rest
  | [], acc, rest, _ => by simp
  | c :: x, acc, rest, h => by
    obtain ⟨h1, h2, h3, h4⟩ := numChar_not (h c List.mem_cons_self)
    rw [List.cons_append, tokens, if_neg h1, if_neg h2, if_neg h3, if_neg (by rw [h4]; decide),
      if_pos (h c List.mem_cons_self), tokens_num x _ _ (fun c hc => h c (List.mem_cons_of_mem _ hc))]
    simp

theorem tokens_flush (acc rest : List Char) (b : Bdry rest) : tokens acc rest = (tokens [] rest).map (flush acc ++ ·) := by
  cases rest with
  | nil => simp [tokens, flush]
  | cons c rest =>
    rcases b c rfl with rfl | rfl | rfl | h
    · simp [tokens, flush]; rfl
    · simp [tokens, flush]; rfl
    · simp [tokens, flush]; rfl
    · have : c ≠ '[' ∧ c ≠ ']' ∧ c ≠ ',' := by
        simp only [jsonSpace, Bool.or_eq_true, beq_iff_eq] at h
        rcases h with ((rfl | rfl) | rfl) | rfl <;> decide
      rw [tokens, if_neg this.1, if_neg this.2.1, if_neg this.2.2, if_pos h]
      rw [tokens, if_neg this.1, if_neg this.2.1, if_neg this.2.2, if_pos h]
      simp [flush]

theorem seg_num {x : List Char} (ne : x ≠ []) (h : ∀ c ∈ x, numChar c = true) : Seg x [.num x] := by
  intro r hr
  rw [tokens_num x [] r h, List.nil_append, tokens_flush x r hr]
  simp [flush, ne]

/-! ### Values -/

/-- The tokens `ts` are a value `j` wherever one may stand inside an array. -/
def IsVal (ts : List Tok) (j : Json) : Prop := ∀ top st rest,
  parse (top :: st) .value (ts ++ rest) = parse ((top ++ [j]) :: st) .after rest ∧
  parse (top :: st) .first (ts ++ rest) = parse ((top ++ [j]) :: st) .after rest

/-- Token sequences separated by commas. -/
def commaSep : List (List Tok) → List Tok
  | [] => []
  | [t] => t
  | t :: t' :: ts => t ++ .comma :: commaSep (t' :: ts)

theorem isVal_num {s : List Char} {q : ℚ} (h : jsonNumber s = some q) : IsVal [.num s] (.num q) := by
  intro top st rest
  simp [parse, h]

theorem parse_elems {up st rest} : ∀ (tss : List (List Tok)) (js : List Json) (top : List Json) (m : Expect),
    List.Forall₂ IsVal tss js → tss ≠ [] → m = .value ∨ m = .first →
    parse (top :: up :: st) m (commaSep tss ++ .close :: rest) = parse ((up ++ [.arr (top ++ js)]) :: st) .after rest
  | [], _, _, _, _, h, _ => absurd rfl h
  | [t], [j], top, m, .cons h .nil, _, hm => by
    have : parse (top :: up :: st) m (commaSep [t] ++ .close :: rest) =
        parse ((top ++ [j]) :: up :: st) .after (.close :: rest) := by
      rcases hm with rfl | rfl
      · exact (h _ _ _).1
      · exact (h _ _ _).2
    rw [this, parse]
  | t :: t' :: ts, j :: js, top, m, .cons h hs, _, hm => by
    have : parse (top :: up :: st) m (commaSep (t :: t' :: ts) ++ .close :: rest) =
        parse ((top ++ [j]) :: up :: st) .after (.comma :: (commaSep (t' :: ts) ++ .close :: rest)) := by
      rw [commaSep, List.append_assoc, List.cons_append]
      rcases hm with rfl | rfl
      · exact (h _ _ _).1
      · exact (h _ _ _).2
    rw [this, parse, parse_elems (t' :: ts) js (top ++ [j]) .value hs (by simp) (Or.inl rfl)]
    simp

theorem isVal_arr {tss : List (List Tok)} {js : List Json} (h : List.Forall₂ IsVal tss js) :
    IsVal (.open_ :: commaSep tss ++ [.close]) (.arr js) := by
  intro top st rest
  have key : parse ([] :: top :: st) .first (commaSep tss ++ .close :: rest) = parse ((top ++ [.arr js]) :: st) .after rest := by
    cases h with
    | nil => simp [commaSep, parse]
    | cons h hs => rw [parse_elems _ _ _ _ (.cons h hs) (by simp) (Or.inr rfl)]; simp
  constructor
  · simpa [parse] using key
  · simpa [parse] using key

theorem parse_elems_top : ∀ (tss : List (List Tok)) (js : List Json) (top : List Json) (m : Expect),
    List.Forall₂ IsVal tss js → tss ≠ [] → m = .value ∨ m = .first →
    parse [top] m (commaSep tss ++ [.close]) = some (.arr (top ++ js))
  | [], _, _, _, _, h, _ => absurd rfl h
  | [t], [j], top, m, .cons h .nil, _, hm => by
    have : parse [top] m (commaSep [t] ++ [.close]) = parse [top ++ [j]] .after [.close] := by
      rcases hm with rfl | rfl
      · exact (h _ _ _).1
      · exact (h _ _ _).2
    rw [this, parse]
  | t :: t' :: ts, j :: js, top, m, .cons h hs, _, hm => by
    have : parse [top] m (commaSep (t :: t' :: ts) ++ [.close]) =
        parse [top ++ [j]] .after (.comma :: (commaSep (t' :: ts) ++ [.close])) := by
      rw [commaSep, List.append_assoc, List.cons_append]
      rcases hm with rfl | rfl
      · exact (h _ _ _).1
      · exact (h _ _ _).2
    rw [this, parse, parse_elems_top (t' :: ts) js (top ++ [j]) .value hs (by simp) (Or.inl rfl)]
    simp

theorem parse_top {tss : List (List Tok)} {js : List Json} (h : List.Forall₂ IsVal tss js) :
    parse [] .value (.open_ :: commaSep tss ++ [.close]) = some (.arr js) := by
  rw [List.cons_append, parse]
  cases h with
  | nil => rfl
  | cons h hs => rw [parse_elems_top _ _ _ _ (.cons h hs) (by simp) (Or.inr rfl)]; simp

/-! ### Numbers -/

theorem digits_head {n : Nat} (h : 0 < n) : (Nat.toDigits 10 n).head? ≠ some '0' := by
  induction n using Nat.strong_induction_on with
  | _ n ih =>
    by_cases hn : n < 10
    · rw [Nat.toDigits_of_lt_base hn]
      interval_cases n <;> decide
    · rw [Nat.toDigits_of_base_le (by decide) (by omega), List.head?_append]
      have := ih (n / 10) (by omega) (by omega)
      cases e : (Nat.toDigits 10 (n / 10)).head? with
      | none => exact absurd (List.head?_eq_none_iff.1 e) Nat.toDigits_ne_nil
      | some c => rw [e] at this; simpa using this

theorem jsonNumber_nat (n : Nat) : jsonNumber (Nat.toDigits 10 n) = some (n : ℚ) := by
  have hd : ∀ c ∈ Nat.toDigits 10 n, c.isDigit = true := fun c hc =>
    Nat.isDigit_of_mem_toDigits (by decide) (by decide) hc
  have h1 : (Nat.toDigits 10 n).takeWhile Char.isDigit = Nat.toDigits 10 n := List.takeWhile_eq_self_iff.2 hd
  have h2 : (Nat.toDigits 10 n).dropWhile Char.isDigit = [] := List.dropWhile_eq_nil_iff.2 hd
  have hu : jsonUnsigned (Nat.toDigits 10 n) = some (n : ℚ) := by
    have hi : jsonInt (Nat.toDigits 10 n) = some (n : ℚ) := by
      unfold jsonInt
      rw [if_neg, Nat.ofDigitChars_toDigits (by decide) (by decide)]
      rintro (h | ⟨h, h'⟩)
      · exact Nat.toDigits_ne_nil h
      · by_cases h0 : n = 0
        · subst h0; exact h' (by decide)
        · exact digits_head (by omega) h
    simp [jsonUnsigned, h1, h2, hi, jsonFrac, jsonExp]
  cases e : Nat.toDigits 10 n with
  | nil => exact absurd e Nat.toDigits_ne_nil
  | cons c cs =>
    have hc : c ≠ '-' := by
      rintro rfl
      exact absurd (hd '-' (by rw [e]; simp)) (by decide)
    rw [← hu, e]
    unfold jsonNumber
    split
    · rename_i s h; cases h; exact absurd rfl hc
    · rfl

theorem numChar_nat (n : Nat) : ∀ c ∈ Nat.toDigits 10 n, numChar c = true := by
  intro c hc
  simp [numChar, Nat.isDigit_of_mem_toDigits (by decide) (by decide) hc]

theorem numChar_digit {c : Char} (h : c.isDigit = true) : numChar c = true := by simp [numChar, h]

theorem numChar_exp {s : List Char} {q : ℚ} (h : jsonExp s = some q) : ∀ c ∈ s, numChar c = true := by
  have digs : ∀ {ds : List Char} {x : ℚ}, (if ds ≠ [] ∧ ds.all Char.isDigit then some x else none) = some q →
      ∀ c ∈ ds, numChar c = true := by
    intro ds x h c hc
    split at h
    · rename_i hh
      exact numChar_digit (List.all_eq_true.1 hh.2 c hc)
    · cases h
  unfold jsonExp at h
  split at h
  · simp
  · split at h
    · rename_i c s he
      intro d hd
      rcases List.mem_cons.1 hd with rfl | hd
      · rcases he with rfl | rfl <;> decide
      · split at h
        · rcases List.mem_cons.1 hd with rfl | hd
          · decide
          · exact digs h d hd
        · rcases List.mem_cons.1 hd with rfl | hd
          · decide
          · exact digs h d hd
        · exact digs h d hd
    · cases h

theorem numChar_split {s : List Char} (h : ∀ c ∈ s.dropWhile Char.isDigit, numChar c = true) : ∀ c ∈ s, numChar c = true := by
  intro c hc
  rw [← List.takeWhile_append_dropWhile (p := Char.isDigit) (l := s), List.mem_append] at hc
  rcases hc with hc | hc
  · exact numChar_digit (List.mem_takeWhile_imp hc)
  · exact h c hc

theorem numChar_unsigned {s : List Char} {q : ℚ} (h : jsonUnsigned s = some q) : s ≠ [] ∧ ∀ c ∈ s, numChar c = true := by
  refine ⟨by rintro rfl; simp [jsonUnsigned, jsonInt] at h, ?_⟩
  unfold jsonUnsigned at h
  rw [Option.bind_eq_some_iff] at h
  obtain ⟨x, -, h⟩ := h
  refine numChar_split ?_
  unfold jsonFrac at h
  split at h
  · rename_i t e
    rw [e]
    intro c hc
    rcases List.mem_cons.1 hc with rfl | hc
    · decide
    · dsimp only at h
      split at h
      · cases h
      · rw [Option.map_eq_some_iff] at h
        obtain ⟨y, hy, -⟩ := h
        exact numChar_split (numChar_exp hy) c hc
  · rw [Option.map_eq_some_iff] at h
    obtain ⟨y, hy, -⟩ := h
    exact numChar_exp hy

theorem numChar_number {s : List Char} {q : ℚ} (h : jsonNumber s = some q) : s ≠ [] ∧ ∀ c ∈ s, numChar c = true := by
  unfold jsonNumber at h
  split at h
  · rw [Option.map_eq_some_iff] at h
    obtain ⟨y, hy, -⟩ := h
    refine ⟨by simp, ?_⟩
    intro c hc
    rcases List.mem_cons.1 hc with rfl | hc
    · decide
    · exact (numChar_unsigned hy).2 c hc
  · exact numChar_unsigned h

/-! ### The writers -/

/-- A piece of text that is a value: `Seg` and `IsVal`. -/
def Piece (x : List Char) (j : Json) : Prop := ∃ ts, Seg x ts ∧ IsVal ts j

theorem piece_num {s : List Char} {q : ℚ} (h : jsonNumber s = some q) : Piece s (.num q) :=
  ⟨_, seg_num (numChar_number h).1 (numChar_number h).2, isVal_num h⟩

theorem piece_pad {w : Nat} {s : List Char} {j : Json} (h : Piece s j) : Piece (pad w s) j := by
  obtain ⟨ts, h1, h2⟩ := h
  exact ⟨ts, (strong_spaces _).appendSeg h1, h2⟩

theorem dumpInit_spec {α : Type} {sh : Nat → α → List Char} {J : α → Json} : ∀ (l : List α) (o : Out),
    (∀ x ∈ l, Piece (sh o.prec x) (J x)) →
    ∃ x tss, dumpInit sh o l = { o with text := o.text ++ x } ∧ Strong x (tss.flatMap (· ++ [.comma])) ∧
      List.Forall₂ IsVal tss (l.map J)
  | [], o, _ => ⟨[], [], by simp [dumpInit], strong_nil, .nil⟩
  | a :: l, o, h => by
    obtain ⟨ts, s1, v1⟩ := h a List.mem_cons_self
    obtain ⟨x, tss, e, s2, v2⟩ := dumpInit_spec (sh := sh) (J := J) l ((o.put (sh o.prec a)).put ", ".toList)
      (fun y hy => h y (List.mem_cons_of_mem _ hy))
    refine ⟨(sh o.prec a ++ ", ".toList) ++ x, ts :: tss, ?_, ?_, .cons v1 v2⟩
    · rw [dumpInit, e]; simp [Out.put]
    · rw [List.flatMap_cons]
      exact (s1.appendStrong strong_comma (by decide) (by intro c hc; simp at hc; subst hc; simp)).append s2

theorem commaSep_snoc : ∀ (tss : List (List Tok)) (t : List Tok), commaSep (tss ++ [t]) = tss.flatMap (· ++ [.comma]) ++ t
  | [], t => by simp [commaSep]
  | [a], t => by simp [commaSep]
  | a :: b :: tss, t => by
    have := commaSep_snoc (b :: tss) t
    simp only [List.cons_append] at this ⊢
    rw [commaSep, this]
    simp

theorem dumpSites_spec {α : Type} {sh : Nat → α → List Char} {J : α → Json} {l : List α} {o : Out} (ne : l ≠ [])
    (h : ∀ x ∈ l, Piece (sh o.prec x) (J x)) :
    ∃ x ts, dumpSites sh o l = some { o with text := o.text ++ x } ∧ Strong x (ts ++ [.comma]) ∧
      IsVal ts (.arr (l.map J)) := by
  obtain ⟨init, a, rfl⟩ : ∃ init a, l = init ++ [a] := ⟨l.dropLast, l.getLast ne, (List.dropLast_concat_getLast ne).symm⟩
  obtain ⟨x, tss, e, s1, v1⟩ := dumpInit_spec (sh := sh) (J := J) init (o.put "[".toList)
    (fun y hy => h y (by simp [hy]))
  obtain ⟨t, s2, v2⟩ := h a (by simp)
  refine ⟨"[".toList ++ (x ++ (sh o.prec a ++ "], ".toList)), .open_ :: commaSep (tss ++ [t]) ++ [.close], ?_, ?_, ?_⟩
  · simp only [dumpSites, List.getLast?_append, List.getLast?_singleton, Option.some_or, List.dropLast_concat, e]
    simp [Out.put]
  · have := strong_open.append (s1.append (s2.appendStrong strong_closecomma (by decide)
      (by intro c hc; simp at hc; subst hc; simp)))
    simpa [commaSep_snoc] using this
  · rw [List.map_append]
    exact isVal_arr (List.rel_append v1 (.cons v2 .nil))

/-- What a writer of averages does: appends a text that is the value `J a`, and leaves the precision at 12. -/
def AvgWriter {A : Type} (avg : Out → A → Out) (J : A → Json) (a : A) : Prop :=
  ∃ x, Piece x (J a) ∧ ∀ o, avg o a = { text := o.text ++ x, prec := 12 }

end Verif.Props
