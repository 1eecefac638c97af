import Verif.Model.PolyText
import Verif.Lemmas.Poly
import Verif.Spec.Poly

/-!
C116: the printed form of a polynomial.
-/

namespace PFEM

variable {K : Type} [Field K] [LinearOrder K]

/-- the power of a variable as it is printed -/
def powText (v : Char) : ℕ → List Char
  | 0 => [' ']
  | 1 => [v, ' ']
  | n + 2 => v :: '^' :: decimal (n + 2) ++ [' ']

omit [Field K] [LinearOrder K] in
theorem text_eq (fmt : K → List Char) (m : Mono K) :
    m.text fmt = '+' :: ' ' :: '(' :: (fmt m.coef ++ ')' :: ' ' :: (powText 'x' m.alpha.x ++ powText 'y' m.alpha.y)) := by
  obtain ⟨⟨a, b⟩, c⟩ := m
  rcases a with _ | _ | a <;> rcases b with _ | _ | b <;> simp [Mono.text, powText]

/-- the part before the first occurrence of a character -/
theorem split_at {c : Char} : ∀ {u u' v v' : List Char}, c ∉ u → c ∉ u' → u ++ c :: v = u' ++ c :: v' → u = u' ∧ v = v'
  | [], [], _, _, _, _, h => by simpa using h
  | [], a :: u', _, _, _, h', h => by simp at h; exact absurd h.1 (by intro e; exact h' (by simp [e]))
  | a :: u, [], _, _, h0, _, h => by simp at h; exact absurd h.1 (by intro e; exact h0 (by simp [e]))
  | a :: u, b :: u', v, v', h0, h', h => by
    simp only [List.cons_append, List.cons.injEq] at h
    obtain ⟨h1, h2⟩ := split_at (fun hc => h0 (by simp [hc])) (fun hc => h' (by simp [hc])) h.2
    exact ⟨by rw [h.1, h1], h2⟩

theorem decimal_inj {m n : ℕ} (h : decimal m = decimal n) : m = n := by
  have := congrArg (fun l => Nat.ofDigitChars 10 l 0) h
  simpa [decimal, Nat.ofDigitChars_ten_toDigits] using this

theorem space_notMem (n : ℕ) : ' ' ∉ decimal n := by
  intro h
  have := Nat.isDigit_of_mem_toDigits (by norm_num) (by norm_num) h
  revert this; decide

theorem powText_inj {v : Char} (hv : v ≠ ' ') {a b : ℕ} {r s : List Char} (h : powText v a ++ r = powText v b ++ s) :
    a = b ∧ r = s := by
  rcases a with _ | _ | a <;> rcases b with _ | _ | b <;> simp [powText, hv, hv.symm] at h ⊢
  · exact h
  · exact h
  · obtain ⟨h1, h2⟩ := split_at (space_notMem _) (space_notMem _) h
    have := decimal_inj h1
    exact ⟨by omega, h2⟩

/-- a number format that distinguishes numbers and has no parenthesis in it -/
structure Unambiguous (fmt : K → List Char) : Prop where
  inj : ∀ c d, fmt c = fmt d → c = d
  paren : ∀ c, ')' ∉ fmt c

omit [Field K] [LinearOrder K] in
theorem mono_text_inj {fmt : K → List Char} (hf : Unambiguous fmt) {m n : Mono K} {r s : List Char}
    (h : m.text fmt ++ r = n.text fmt ++ s) : m = n ∧ r = s := by
  rw [text_eq, text_eq] at h
  simp only [List.cons_append, List.cons.injEq, true_and, List.append_assoc] at h
  obtain ⟨h1, h2⟩ := split_at (hf.paren _) (hf.paren _) h
  simp only [List.cons.injEq, true_and] at h2
  obtain ⟨h3, h4⟩ := powText_inj (by decide) h2
  obtain ⟨h5, h6⟩ := powText_inj (by decide) h4
  obtain ⟨⟨a, b⟩, c⟩ := m
  obtain ⟨⟨a', b'⟩, c'⟩ := n
  simp only at h3 h5 h1
  exact ⟨by rw [h3, h5, hf.inj _ _ h1], h6⟩

omit [Field K] [LinearOrder K] in
theorem text_foldl (fmt : K → List Char) (p : Poly K) (acc : List Char) :
    p.foldl (fun msg m => msg ++ m.text fmt) acc = acc ++ p.flatMap (Mono.text fmt) := by
  induction p generalizing acc with
  | nil => simp
  | cons m p ih => simp [ih]

omit [Field K] [LinearOrder K] in
theorem flat_inj {fmt : K → List Char} (hf : Unambiguous fmt) : ∀ {p q : Poly K},
    p.flatMap (Mono.text fmt) = q.flatMap (Mono.text fmt) → p = q
  | [], [], _ => rfl
  | [], n :: q, h => by simp [text_eq] at h
  | m :: p, [], h => by simp [text_eq] at h
  | m :: p, n :: q, h => by
    simp only [List.flatMap_cons] at h
    obtain ⟨h1, h2⟩ := mono_text_inj hf h
    rw [h1, flat_inj hf h2]

omit [Field K] [LinearOrder K] in
/-- the text of the zero polynomial is not the text of anything else -/
theorem zero_text_ne {fmt : K → List Char} (hf : Unambiguous fmt) (m : Mono K) (r : List Char) :
    ['+', ' ', '(', '0', ')', ' '] ≠ m.text fmt ++ r := by
  rw [text_eq]
  intro h
  simp only [List.cons_append, List.cons.injEq, true_and, List.append_assoc] at h
  have h : ['0'] ++ ')' :: [' '] = fmt m.coef ++ ')' :: ([' '] ++ (powText 'x' m.alpha.x ++ (powText 'y' m.alpha.y ++ r))) := by
    simpa using h
  obtain ⟨-, h2⟩ := split_at (by decide) (hf.paren _) h
  have := congrArg List.length h2
  have hx : 1 ≤ (powText 'x' m.alpha.x).length := by
    rcases m.alpha.x with _ | _ | a <;> simp [powText]
  simp at this
  rw [this.1] at hx
  simp at hx

/-- Printing puts the terms in order of their ids and changes nothing else: the terms, and so the values, are the same;
a polynomial in canonical form stays as it is.  The text has the terms in that order; no terms are `+ (0) `. -/
theorem C116_text (fmt : K → List Char) (p : Poly K) :
    (Poly.text fmt p).1.Perm p ∧ (Poly.text fmt p).1.Pairwise (fun a b => a.alpha.idx ≤ b.alpha.idx) ∧
    (p.Canonical → (Poly.text fmt p).1 = p) ∧
    (p = [] → (Poly.text fmt p).2 = "+ (0) ".toList) ∧
    (p ≠ [] → (Poly.text fmt p).2 = (Poly.text fmt p).1.flatMap fun m =>
      "+ (".toList ++ fmt m.coef ++ ") ".toList ++ powText 'x' m.alpha.x ++ powText 'y' m.alpha.y) := by
  have h1 : (Poly.text fmt p).1 = Poly.sort p := by unfold Poly.text; simp only; split <;> rfl
  rw [h1]
  refine ⟨Poly.sort_perm p, Poly.sort_sorted p, fun h => Poly.sort_eq_self h.1, ?_, ?_⟩
  · rintro rfl
    change ['+', ' ', '(', '0', ')', ' '] = _
    decide
  · intro h
    have hl : (Poly.sort p).length ≠ 0 := by
      rw [(Poly.sort_perm p).length_eq]; simpa using h
    simp only [Poly.text, hl, if_false, text_foldl, List.nil_append]
    congr 1
    funext m
    rw [text_eq]; simp

/-- Two polynomials in canonical form with the same text are the same, whatever the number format, as long as it tells
numbers apart and has no parentheses. -/
theorem C116_injective {fmt : K → List Char} (hf : Unambiguous fmt) {p q : Poly K} (hp : p.Canonical) (hq : q.Canonical) :
    (Poly.text fmt p).2 = (Poly.text fmt q).2 ↔ p = q := by
  refine ⟨fun h => ?_, fun h => by rw [h]⟩
  have sp : Poly.sort p = p := Poly.sort_eq_self hp.1
  have sq : Poly.sort q = q := Poly.sort_eq_self hq.1
  rcases p with _ | ⟨m, p⟩ <;> rcases q with _ | ⟨n, q⟩
  · rfl
  · simp only [Poly.text, sp, sq, text_foldl] at h
    simp at h
    exact absurd h (zero_text_ne hf n _)
  · simp only [Poly.text, sp, sq, text_foldl] at h
    simp at h
    exact absurd h.symm (zero_text_ne hf m _)
  · simp only [Poly.text, sp, sq, text_foldl] at h
    simp only [List.length_cons, Nat.succ_ne_zero, if_false, List.nil_append] at h
    exact flat_inj hf h

/-- `set_to_zero` makes the polynomial zero everywhere, and `is_zero` says so. -/
theorem C116_zero (p : Poly K) : (∀ x y, Poly.eval (Poly.setToZero p) x y = 0) ∧ (Poly.isZero (Poly.setToZero p)).1 = true := by
  refine ⟨fun x y => rfl, rfl⟩

/-- `3 - 2 x y^12`, with the numbers as natural numbers and a sign -/
example : (Poly.text (fun c : ℚ => (if c < 0 then ['-'] else []) ++ decimal c.num.natAbs)
      [⟨⟨1, 12⟩, -2⟩, ⟨⟨0, 0⟩, 3⟩]).2 = "+ (3)   + (-2) x y^12 ".toList := by decide +kernel

/-- a format as the theorem asks for: fractions -/
example : Unambiguous fun c : ℚ => (if c < 0 then ['-'] else []) ++ decimal c.num.natAbs ++ '/' :: decimal c.den := by
  have hd : ∀ c : Char, ¬c.isDigit → ∀ n, c ∉ decimal n := fun c hc n h =>
    hc (Nat.isDigit_of_mem_toDigits (by norm_num) (by norm_num) h)
  refine ⟨fun c d h => ?_, fun c => ?_⟩
  · have hs : ∀ c : ℚ, '/' ∉ (if c < 0 then ['-'] else []) ++ decimal c.num.natAbs := by
      intro c
      have := hd '/' (by decide) c.num.natAbs
      split <;> simp [this]
    obtain ⟨h1, h2⟩ := split_at (hs c) (hs d) h
    have hden := decimal_inj h2
    have hm : ∀ c d : ℚ, c < 0 → ¬d < 0 → (if c < 0 then ['-'] else []) ++ decimal c.num.natAbs ≠
        (if d < 0 then ['-'] else []) ++ decimal d.num.natAbs := by
      intro c d hc hd' he
      simp only [hc, hd', if_true, if_false, List.nil_append, List.cons_append] at he
      exact hd '-' (by decide) d.num.natAbs (by rw [← he]; simp)
    have hnum : c.num = d.num := by
      by_cases hc : c < 0 <;> by_cases hd' : d < 0
      · simp only [hc, hd', if_true, List.cons_append, List.nil_append, List.cons.injEq, true_and] at h1
        have := decimal_inj h1
        have a := Rat.num_neg.2 hc
        have b := Rat.num_neg.2 hd'
        omega
      · exact absurd h1 (hm c d hc hd')
      · exact absurd h1.symm (hm d c hd' hc)
      · simp only [hc, hd', if_false, List.nil_append] at h1
        have := decimal_inj h1
        have a := Rat.num_nonneg.2 (not_lt.1 hc)
        have b := Rat.num_nonneg.2 (not_lt.1 hd')
        omega
    exact Rat.ext hnum hden
  · have := hd ')' (by decide)
    split <;> simp [this]

end PFEM
