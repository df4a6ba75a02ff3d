import Verif.Program.Argparse
import Mathlib.Data.Char
import Mathlib.Tactic.IntervalCases

/-!
# Which words can be the value of an option
-/

namespace Bayesmix.Program

/-! ### Numbers in decimal notation -/

/-- Decimal digits, possibly none. -/
def Digits (s : Str) : Prop := ∀ c ∈ s, '0' ≤ c ∧ c ≤ '9'

/-- At least one decimal digit. -/
def Digits1 (s : Str) : Prop := Digits s ∧ s ≠ []

/-- An exponent, or nothing: `e` or `E`, a sign or not, digits. -/
def Exponent (s : Str) : Prop :=
  s = [] ∨ ∃ e sg d, (e = 'e' ∨ e = 'E') ∧ (sg = [] ∨ sg = ['-'] ∨ sg = ['+']) ∧ Digits1 d ∧ s = e :: (sg ++ d)

/-- A number without sign in decimal notation: an integer, or digits with a point before, between or
after them, each with or without exponent. -/
def Decimal (s : Str) : Prop :=
  (∃ i x, Digits1 i ∧ Exponent x ∧ s = i ++ x) ∨
  (∃ i f x, Digits1 i ∧ Digits f ∧ Exponent x ∧ s = i ++ '.' :: (f ++ x)) ∨
  ∃ f x, Digits1 f ∧ Exponent x ∧ s = '.' :: (f ++ x)

/-- An integer of more than one digit that begins with a zero. -/
def LeadingZero (s : Str) : Prop := ∃ t, t ≠ [] ∧ Digits t ∧ s = '0' :: t

/-! ### The functions of the parser -/

theorem isDigit_iff (c : Char) : isDigit c = true ↔ '0' ≤ c ∧ c ≤ '9' := by
  unfold isDigit
  constructor
  · intro h
    simp only [decide_eq_true_eq, List.mem_cons, List.not_mem_nil, or_false] at h
    rcases h with rfl | rfl | rfl | rfl | rfl | rfl | rfl | rfl | rfl | rfl <;> decide
  · rintro ⟨h1, h2⟩
    have h1' : 48 ≤ c.toNat := h1
    have h2' : c.toNat ≤ 57 := h2
    have hc : c = Char.ofNat c.toNat := (Char.ofNat_toNat c).symm
    generalize c.toNat = n at *
    subst hc
    interval_cases n <;> decide

theorem digits_iff (s : Str) : Digits s ↔ ∀ c ∈ s, isDigit c = true :=
  forall₂_congr fun c _ => (isDigit_iff c).symm

theorem headDigit_iff (s : Str) : headDigit s = true ↔ ∃ c t, isDigit c = true ∧ s = c :: t := by
  cases s with
  | nil => simp [headDigit]
  | cons c t => simp [headDigit]

/-- Digits, and then something that does not begin with a digit. -/
theorem consume_append {d x : Str} (hd : Digits d) (hx : headDigit x = false) :
    consumeDigits (d ++ x) = x := by
  rw [digits_iff] at hd
  unfold consumeDigits
  induction d with
  | nil =>
    cases x with
    | nil => rfl
    | cons c t => simp only [headDigit] at hx; simp [hx]
  | cons c d ih =>
    rw [List.cons_append, List.dropWhile_cons_of_pos (hd c (by simp))]
    exact ih fun c' h => hd c' (by simp [h])

theorem consume_split (s : Str) :
    ∃ d, Digits d ∧ s = d ++ consumeDigits s ∧ headDigit (consumeDigits s) = false := by
  refine ⟨s.takeWhile isDigit, ?_, (List.takeWhile_append_dropWhile).symm, ?_⟩
  · rw [digits_iff]
    intro c hc
    exact List.all_eq_true.mp (List.all_takeWhile (p := isDigit) (l := s)) c hc
  · unfold consumeDigits
    induction s with
    | nil => rfl
    | cons c t ih =>
      by_cases h : isDigit c = true
      · rw [List.dropWhile_cons_of_pos h]; exact ih
      · rw [List.dropWhile_cons_of_neg h]; simpa [headDigit] using h

/-- What comes after the digits. -/
theorem consume_iff {E : Str → Prop} (hE : ∀ x, E x → headDigit x = false) (s : Str) :
    E (consumeDigits s) ↔ ∃ d x, Digits d ∧ E x ∧ s = d ++ x := by
  constructor
  · intro h
    obtain ⟨d, hd, hs, _⟩ := consume_split s
    exact ⟨d, _, hd, h, hs⟩
  · rintro ⟨d, x, hd, hx, rfl⟩
    rw [consume_append hd (hE x hx)]
    exact hx

theorem head_consume_iff {E : Str → Prop} (hE : ∀ x, E x → headDigit x = false) (s : Str) :
    (headDigit s = true ∧ E (consumeDigits s)) ↔ ∃ d x, Digits1 d ∧ E x ∧ s = d ++ x := by
  constructor
  · rintro ⟨h, hc⟩
    obtain ⟨d, x, hd, hx, hs⟩ := (consume_iff hE s).mp hc
    refine ⟨d, x, ⟨hd, ?_⟩, hx, hs⟩
    rintro rfl
    rw [List.nil_append] at hs
    rw [hs, hE x hx] at h
    cases h
  · rintro ⟨d, x, hd, hx, rfl⟩
    refine ⟨?_, (consume_iff hE _).mpr ⟨d, x, hd.1, hx, rfl⟩⟩
    obtain ⟨c, t, rfl⟩ := List.exists_cons_of_ne_nil hd.2
    exact (isDigit_iff c).mpr (hd.1 c (by simp))

theorem digits_all (s : Str) : (headDigit s && (consumeDigits s).isEmpty) = true ↔ Digits1 s := by
  rw [Bool.and_eq_true, List.isEmpty_iff,
    head_consume_iff (E := fun x => x = []) (by rintro x rfl; rfl)]
  constructor
  · rintro ⟨d, x, hd, rfl, rfl⟩
    simpa using hd
  · intro h
    exact ⟨s, [], h, rfl, by simp⟩

theorem digits1_head {s : Str} (h : Digits1 s) : headDigit s = true := by
  have := (digits_all s).mpr h
  rw [Bool.and_eq_true] at this
  exact this.1

theorem postE_iff (s : Str) :
    postE s = true ↔ ∃ sg d, (sg = [] ∨ sg = ['-'] ∨ sg = ['+']) ∧ Digits1 d ∧ s = sg ++ d := by
  unfold postE
  simp only
  rw [digits_all]
  constructor
  · intro h
    split at h
    · exact ⟨['-'], _, .inr (.inl rfl), h, rfl⟩
    · exact ⟨['+'], _, .inr (.inr rfl), h, rfl⟩
    · exact ⟨[], s, .inl rfl, h, rfl⟩
  · rintro ⟨sg, d, rfl | rfl | rfl, hd, rfl⟩
    · have h := digits1_head hd
      split
      · exact absurd h (by simp [headDigit, isDigit])
      · exact absurd h (by simp [headDigit, isDigit])
      · exact hd
    · exact hd
    · exact hd

theorem exponentOpt_iff (s : Str) : exponentOpt s = true ↔ Exponent s := by
  unfold exponentOpt Exponent
  constructor
  · intro h
    split at h
    · exact .inl rfl
    · obtain ⟨sg, d, h1, h2, rfl⟩ := (postE_iff _).mp h
      exact .inr ⟨_, sg, d, .inl rfl, h1, h2, rfl⟩
    · obtain ⟨sg, d, h1, h2, rfl⟩ := (postE_iff _).mp h
      exact .inr ⟨_, sg, d, .inr rfl, h1, h2, rfl⟩
    · cases h
  · rintro (rfl | ⟨e, sg, d, rfl | rfl, h1, h2, rfl⟩)
    · rfl
    · exact (postE_iff _).mpr ⟨sg, d, h1, h2, rfl⟩
    · exact (postE_iff _).mpr ⟨sg, d, h1, h2, rfl⟩

theorem exponent_head {x : Str} (h : Exponent x) : headDigit x = false := by
  rcases h with rfl | ⟨e, sg, d, rfl | rfl, _, _, rfl⟩
  · rfl
  · simp [headDigit, isDigit]
  · simp [headDigit, isDigit]

theorem postDecimal_iff (s : Str) :
    postDecimal s = true ↔ ∃ f x, Digits1 f ∧ Exponent x ∧ s = f ++ x := by
  unfold postDecimal
  rw [Bool.and_eq_true, exponentOpt_iff, head_consume_iff fun x hx => exponent_head hx]

/-- What may follow the digits before the point. -/
def Tail (s : Str) : Prop :=
  (Exponent s ∧ s ≠ []) ∨ ∃ f x, Digits f ∧ Exponent x ∧ s = '.' :: (f ++ x)

theorem integerConsumed_iff (s : Str) : integerConsumed s = true ↔ Tail s := by
  constructor
  · intro h
    unfold integerConsumed at h
    split at h
    · rename_i t
      right
      split at h
      · obtain ⟨f, x, hf, hx, rfl⟩ := (postDecimal_iff _).mp h
        exact ⟨f, x, hf.1, hx, rfl⟩
      · exact ⟨[], t, by simp [Digits], (exponentOpt_iff _).mp h, rfl⟩
    · refine .inl ⟨(exponentOpt_iff _).mp h, by simp⟩
    · refine .inl ⟨(exponentOpt_iff _).mp h, by simp⟩
    · cases h
  · rintro (⟨h, hne⟩ | ⟨f, x, hf, hx, rfl⟩)
    · rcases h with rfl | ⟨e, sg, d, rfl | rfl, h1, h2, rfl⟩
      · exact absurd rfl hne
      · exact (postE_iff _).mpr ⟨sg, d, h1, h2, rfl⟩
      · exact (postE_iff _).mpr ⟨sg, d, h1, h2, rfl⟩
    · change (if headDigit (f ++ x) = true then postDecimal (f ++ x) else exponentOpt (f ++ x)) = true
      by_cases hf0 : f = []
      · subst hf0
        rw [List.nil_append, exponent_head hx]
        exact (exponentOpt_iff _).mpr hx
      · have h1 : postDecimal (f ++ x) = true := (postDecimal_iff _).mpr ⟨f, x, ⟨hf, hf0⟩, hx, rfl⟩
        have h2 : headDigit (f ++ x) = true := by
          unfold postDecimal at h1
          rw [Bool.and_eq_true] at h1
          exact h1.1
        rw [h2]
        exact h1

theorem tail_head {s : Str} (h : Tail s) : headDigit s = false := by
  rcases h with ⟨h, _⟩ | ⟨f, x, _, _, rfl⟩
  · exact exponent_head h
  · simp [headDigit, isDigit]

theorem decimal_iff (s : Str) :
    Decimal s ↔ (Digits1 s ∨ ∃ i x, Digits1 i ∧ Tail x ∧ s = i ++ x) ∨
      ∃ f x, Digits1 f ∧ Exponent x ∧ s = '.' :: (f ++ x) := by
  constructor
  · rintro (⟨i, x, hi, hx, rfl⟩ | ⟨i, f, x, hi, hf, hx, rfl⟩ | h)
    · by_cases h0 : x = []
      · subst h0
        exact .inl (.inl (by simpa using hi))
      · exact .inl (.inr ⟨i, x, hi, .inl ⟨hx, h0⟩, rfl⟩)
    · exact .inl (.inr ⟨i, _, hi, .inr ⟨f, x, hf, hx, rfl⟩, rfl⟩)
    · exact .inr h
  · rintro ((h | ⟨i, x, hi, ⟨hx, _⟩ | ⟨f, y, hf, hy, rfl⟩, rfl⟩) | h)
    · exact .inl ⟨s, [], h, .inl rfl, by simp⟩
    · exact .inl ⟨i, x, hi, hx, rfl⟩
    · exact .inr (.inl ⟨i, f, y, hi, hf, hy, rfl⟩)
    · exact .inr (.inr h)

theorem isDecimalLiteral_iff (s : Str) : isDecimalLiteral s = true ↔ Decimal s ∧ ¬ LeadingZero s := by
  rw [decimal_iff]
  cases s with
  | nil =>
    simp only [isDecimalLiteral, Bool.false_eq_true, false_iff]
    rintro ⟨((⟨_, h⟩ | ⟨i, x, hi, _, h⟩) | ⟨f, x, _, _, h⟩), _⟩
    · exact h rfl
    · exact hi.2 (List.append_eq_nil_iff.mp h.symm).1
    · cases h
  | cons c t =>
    -- digits in front of the rest
    have hdig : isDigit c = true → ((Digits1 (c :: t) ∨ ∃ i x, Digits1 i ∧ Tail x ∧ c :: t = i ++ x) ↔
        Digits t ∨ integerConsumed (consumeDigits t) = true) := by
      intro hc
      rw [integerConsumed_iff, consume_iff fun x hx => tail_head hx]
      have hc' := (isDigit_iff c).mp hc
      refine or_congr ?_ ?_
      · constructor
        · intro h c' hc'
          exact h.1 c' (by simp [hc'])
        · intro h
          refine ⟨?_, by simp⟩
          intro c'' h''
          rcases List.mem_cons.mp h'' with rfl | h''
          · exact hc'
          · exact h c'' h''
      · constructor
        · rintro ⟨i, x, hi, hx, h⟩
          obtain ⟨c', i', rfl⟩ := List.exists_cons_of_ne_nil hi.2
          rw [List.cons_append, List.cons.injEq] at h
          exact ⟨i', x, fun a ha => hi.1 a (by simp [ha]), hx, h.2⟩
        · rintro ⟨d, x, hd, hx, rfl⟩
          refine ⟨c :: d, x, ⟨?_, by simp⟩, hx, rfl⟩
          intro c'' h''
          rcases List.mem_cons.mp h'' with rfl | h''
          · exact hc'
          · exact hd c'' h''
    have hempty : ∀ t : Str, (consumeDigits t).isEmpty = true ↔ Digits t := by
      intro t
      rw [List.isEmpty_iff, consume_iff (E := fun x => x = []) (by rintro x rfl; rfl)]
      constructor
      · rintro ⟨d, x, hd, rfl, rfl⟩
        simpa using hd
      · intro h
        exact ⟨t, [], h, rfl, by simp⟩
    have hnodot : isDigit c = true → ¬ ∃ f x, Digits1 f ∧ Exponent x ∧ c :: t = '.' :: (f ++ x) := by
      rintro hc ⟨f, x, _, _, h⟩
      rw [List.cons.injEq] at h
      rw [h.1] at hc
      exact absurd hc (by decide)
    unfold isDecimalLiteral
    dsimp only
    by_cases h0 : c = '0'
    · subst h0
      rw [if_pos rfl, Bool.or_eq_true, List.isEmpty_iff, or_iff_left (hnodot (by decide)),
        hdig (by decide)]
      have hno : integerConsumed (consumeDigits t) = true → ¬ Digits t := by
        intro h hd
        rw [List.isEmpty_iff.mp ((hempty t).mpr hd)] at h
        cases h
      constructor
      · rintro (rfl | h)
        · refine ⟨.inl (by simp [Digits]), ?_⟩
          rintro ⟨t', hne, _, h⟩
          rw [List.cons.injEq] at h
          exact hne h.2.symm
        · refine ⟨.inr h, ?_⟩
          rintro ⟨t', _, hd, h'⟩
          rw [List.cons.injEq] at h'
          exact hno h (h'.2 ▸ hd)
      · rintro ⟨h | h, hz⟩
        · left
          by_contra hne
          exact hz ⟨t, hne, h, rfl⟩
        · exact .inr h
    · have hz : ¬ LeadingZero (c :: t) := by
        rintro ⟨t', _, _, h⟩
        rw [List.cons.injEq] at h
        exact h0 h.1
      rw [if_neg h0, and_iff_left hz]
      by_cases hc : isDigit c = true
      · rw [if_pos hc, Bool.or_eq_true, hempty, or_iff_left (hnodot hc), hdig hc]
      · rw [if_neg hc]
        have hnd : ¬ (Digits1 (c :: t) ∨ ∃ i x, Digits1 i ∧ Tail x ∧ c :: t = i ++ x) := by
          rintro (h | ⟨i, x, hi, _, h⟩)
          · exact hc ((isDigit_iff c).mpr (h.1 c (by simp)))
          · obtain ⟨c', i', rfl⟩ := List.exists_cons_of_ne_nil hi.2
            rw [List.cons_append, List.cons.injEq] at h
            exact hc ((isDigit_iff c).mpr (hi.1 c (by simp [h.1])))
        rw [or_iff_right hnd]
        by_cases hdot : c = '.'
        · subst hdot
          rw [if_pos rfl, postDecimal_iff]
          simp only [List.cons.injEq, true_and]
        · rw [if_neg hdot]
          simp only [Bool.false_eq_true, false_iff]
          rintro ⟨f, x, _, _, h⟩
          rw [List.cons.injEq] at h
          exact hdot h.1

/-- The words that can be the value of an option: those that do not begin with a minus, the minus alone,
and negative numbers in decimal notation that are not integers with leading zeros. -/
def IsValue (w : Str) : Prop :=
  w.head? ≠ some '-' ∨ w = ['-'] ∨ ∃ t, w = '-' :: t ∧ Decimal t ∧ ¬ LeadingZero t

theorem isPositional_iff (w : Str) : isPositional w = true ↔ IsValue w := by
  unfold IsValue
  cases w with
  | nil => simp [isPositional]
  | cons c t =>
    by_cases hc : c = '-'
    · subst hc
      simp only [isPositional, Bool.or_eq_true, List.isEmpty_iff, isDecimalLiteral_iff, List.head?_cons,
        ne_eq, not_true, false_or, List.cons.injEq, true_and]
      refine or_congr Iff.rfl ⟨fun h => ⟨t, rfl, h⟩, ?_⟩
      rintro ⟨t', rfl, h⟩
      exact h
    · have : isPositional (c :: t) = true := by
        unfold isPositional
        split
        · rename_i h
          rw [List.cons.injEq] at h
          exact absurd h.1 hc
        · rfl
      simp [this, hc]

instance (w : Str) : Decidable (IsValue w) := decidable_of_iff _ (isPositional_iff w)

end Bayesmix.Program
