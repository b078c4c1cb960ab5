import Verif.Props.Gauss
import Verif.Model.ElementText
/-!
# C88 continued: the check of the Moore kernel; C126: the comparison `max` of polynomials
-/

namespace Verif.Props
open Poly Gauss Matrix

variable {K : Type _} [Field K] [DecidableEq K]

/-- `gauss` on two rows, no rows being swapped (`M` being the rows after a possible swap). -/
theorem gauss_moore (a b : K) (ha : a ≠ 0) (hb : b ≠ 0) (hab : a ≠ b) (M : Mat K)
    (h00 : M 0 0 = a) (h01 : M 0 1 = a ^ 2) (h02 : M 0 2 = a ^ 4) (h10 : M 1 0 = b) (h11 : M 1 1 = b ^ 2) (h12 : M 1 2 = b ^ 4) :
    ∃ M' : Mat K, (elimLoop pyDiv 2 0 [1] M >>= fun M => backLoop pyDiv 2 2 M []) = .ok ([-(a * b * (a + b)), a ^ 2 + a * b + b ^ 2], M') ∧
      M' 0 0 = a ∧ M' 0 1 = a ^ 2 ∧ M' 0 2 = a * -(a * b * (a + b)) ∧ M' 1 0 = 0 ∧ M' 1 1 = b * (b - a) ∧
      M' 1 2 = b * (b - a) * (a ^ 2 + a * b + b ^ 2) := by
  have hd : b - a ≠ 0 := sub_ne_zero.mpr (Ne.symm hab)
  have hn : b * (b - a) ≠ 0 := mul_ne_zero hb hd
  have e1 : b ^ 2 + -b / a * a ^ 2 = b * (b - a) := by field_simp; ring
  have e2 : b ^ 4 + -b / a * a ^ 4 = b * (b - a) * (a ^ 2 + a * b + b ^ 2) := by field_simp; ring
  have e5 : a ^ 4 - a ^ 2 * (a ^ 2 + a * b + b ^ 2) = a * -(a * b * (a + b)) := by ring
  have d1 : pyDiv (-b) a = .ok (-b / a) := by rw [pyDiv, if_neg ha, div_eq_mul_inv]
  have d2 : pyDiv (b * (b - a) * (a ^ 2 + a * b + b ^ 2)) (b * (b - a)) = .ok (a ^ 2 + a * b + b ^ 2) := by
    rw [pyDiv, if_neg hn]; congr 1; field_simp
  have d3 : pyDiv (a * -(a * b * (a + b))) a = .ok (-(a * b * (a + b))) := by
    rw [pyDiv, if_neg ha]; congr 1; field_simp
  generalize hS : a ^ 2 + a * b + b ^ 2 = S at *
  generalize hT : -(a * b * (a + b)) = T at *
  generalize hD : b * (b - a) = D at *
  refine ⟨setE (setE (setE (setE M 1 0 0) 1 1 D) 1 2 (D * S)) 0 2 (a * T), ?_, ?_⟩
  · simp [pyRange, List.range', bind, Except.bind, elimLoop, rowLoop, d1, d2, d3,
          setE, h00, h01, h02, h10, h11, h12, backLoop, substLoop, e1, e2, e5, List.range, List.range.loop]
  · simp [setE, h00, h01]

theorem swapLoop_self {P : Type _} (i : Nat) (ks : List Nat) (h : ks.Nodup) (M : Mat P) : swapLoop i i ks M = M := by
  funext a b
  rw [swapLoop_eq _ _ _ _ _ _ h]
  split_ifs with h1 h2
  · rw [h2]
  · rfl
  · rfl

/-- `gauss` on a 2×3 matrix after its one comparison. -/
theorem gauss_rows (t : Bool) (M : Mat K) : gauss pyDiv (fun _ _ _ _ => .ok t) M 2 =
    (elimLoop pyDiv 2 0 [1] (swapLoop 0 (if t then 1 else 0) [0, 1, 2] M) >>= fun M => backLoop pyDiv 2 2 M []) := by
  have e : gauss pyDiv (fun _ _ _ _ => .ok t) M 2 =
    (elimLoop pyDiv 2 0 [1] (swapLoop 0 (if t then 1 else 0) [0, 1, 2] M) >>= fun M => backLoop pyDiv 2 2 (swapLoop 1 1 [1, 2] M) []) := by
    have e1 : gauss pyDiv (fun _ _ _ _ => .ok t) M 2 = ((elimLoop pyDiv 2 0 [1] (swapLoop 0 (if t then 1 else 0) [0, 1, 2] M) >>= fun M =>
        (.ok (swapLoop 1 1 [1, 2] M) : Py (Mat K))) >>= fun M => backLoop pyDiv 2 2 M []) := by cases t <;> rfl
    rw [e1]
    cases elimLoop pyDiv 2 0 [1] (swapLoop 0 (if t then 1 else 0) [0, 1, 2] M) <;> rfl
  rw [e]
  congr 1
  funext M
  rw [swapLoop_self _ _ (by decide)]

/-- **C88** is false even where the elimination is right: the result is checked against the matrix the elimination has changed. For every two different
non-zero constants of any field, whatever the identity tests, `gauss` finds the coefficients of the vanishing polynomial
`x^4 - (a² + ab + b²)·x² + ab(a + b)·x` of `0, a, b, a + b` in characteristic 2, and then the assertion fails, unless `a² + ab + b² = 0`. -/
theorem C88_check_refuted {F : Type _} [Zero F] [DecidableEq F] (cast : CPoly K → F) (same : Nat → Nat → Nat → Bool)
    (startsWith1 : K → Bool) (a b : K) (ha : a ≠ 0) (hb : b ≠ 0) (hab : a ≠ b) :
    moorePoly cast same startsWith1 [const a, const b] =
      (if a ^ 2 + a * b + b ^ 2 = 0 then .ok (strip [cast (const (-(a * b * (a + b)))), cast (const 0)] 0) else .error .assertion) ∧
    (CharP K 2 → ∀ x ∈ ({0, a, b, a + b} : Set K), x ^ 4 - (a ^ 2 + a * b + b ^ 2) * x ^ 2 + a * b * (a + b) * x = 0) := by
  constructor
  · let MK : Mat K := fun i j => (([a, b].map fun x => [x, x ^ 2, x ^ 4]).getD i []).getD j 0
    have hM : mooreMatrix [const a, const b] = .ok (mapMat const MK) := by
      rw [mooreMatrix_eq]
      congr 1
      funext i j
      have hp : ∀ (x : K) (n : Nat), const x ^ n = const (x ^ n) := by
        intro x n
        induction n with
        | zero => exact CPoly.val_inj (by simp [const_val])
        | succ n ih => rw [pow_succ, ih, ← (hom_const same startsWith1).mul, pow_succ]
      have hz : (0 : CPoly K) = const 0 := (hom_const same startsWith1).zero.symm
      simp only [mapMat, MK]
      match i, j with
      | 0, 0 => rfl
      | 0, 1 => exact hp a 2
      | 0, 2 => exact hp a 4
      | 0, j + 3 => simpa [List.range, List.range.loop] using hz
      | 1, 0 => rfl
      | 1, 1 => exact hp b 2
      | 1, 2 => exact hp b 4
      | 1, j + 3 => simpa [List.range, List.range.loop] using hz
      | i + 2, j => simpa using hz
    have key : ∀ t : Bool, ∃ (M' : Mat K) (c e : K), c ≠ 0 ∧
        gauss pyDiv (fun _ _ _ _ => .ok t) MK 2 = .ok ([-(a * b * (a + b)), a ^ 2 + a * b + b ^ 2], M') ∧
        M' 0 0 = c ∧ M' 0 1 = c ^ 2 ∧ M' 0 2 = c * -(a * b * (a + b)) ∧ M' 1 0 = 0 ∧ M' 1 1 = e ∧
        M' 1 2 = e * (a ^ 2 + a * b + b ^ 2) := by
      intro t
      rw [gauss_rows]
      cases t with
      | false =>
        obtain ⟨M', h⟩ := gauss_moore a b ha hb hab (swapLoop 0 0 [0, 1, 2] MK) rfl rfl rfl rfl rfl rfl
        exact ⟨M', a, _, ha, h⟩
      | true =>
        obtain ⟨M', h⟩ := gauss_moore b a hb ha hab.symm (swapLoop 0 1 [0, 1, 2] MK) rfl rfl rfl rfl rfl rfl
        refine ⟨M', b, a * (a - b), hb, ?_⟩
        rw [show -(a * b * (a + b)) = -(b * a * (b + a)) by ring, show a ^ 2 + a * b + b ^ 2 = b ^ 2 + b * a + a ^ 2 by ring]
        exact h
    obtain ⟨M', c, e, hc, h0, h1, h2, h3, h4, h5, h6⟩ := key (maxPoly (same 0 1) startsWith1 (ctor [MK 1 0]) (ctor [MK 0 0]))
    have hg : gaussPoly same startsWith1 (mapMat const MK) 2 =
        .ok ([const (-(a * b * (a + b))), const (a ^ 2 + a * b + b ^ 2)], mapMat const M') := by
      rw [gaussPoly, gauss_map (hom_const same startsWith1), gauss_two, h0]
      rfl
    have H := hom_const same startsWith1
    have inj : ∀ x y : K, const x = const y ↔ x = y := by
      intro x y
      refine ⟨fun h => ?_, fun h => by rw [h]⟩
      have := congrArg CPoly.val h
      rw [const_val, const_val] at this
      exact Polynomial.C_injective this
    have ht : testLoop (mapMat const M') [const (-(a * b * (a + b))), const (a ^ 2 + a * b + b ^ 2)] 2 (List.range 2) =
        if a ^ 2 + a * b + b ^ 2 = 0 then .ok () else .error .assertion := by
      generalize a ^ 2 + a * b + b ^ 2 = S at *
      generalize -(a * b * (a + b)) = T at *
      have q1 : c * T + c ^ 2 * S = c * T ↔ S = 0 := by
        rw [add_eq_left, mul_eq_zero]
        simp [hc]
      by_cases hS : S = 0
      · subst hS
        simp [testLoop, tempLoop, List.range, List.range.loop, pyIdx, bind, Except.bind, mapMat, h1, h2, h3, h4, h5, h6, pyAssert, ← H.mul, ← H.add]
      · have : const (c * T + c ^ 2 * S) ≠ const (c * T) := fun h => hS (q1.mp ((inj _ _).mp h))
        simp [testLoop, tempLoop, List.range, List.range.loop, pyIdx, bind, Except.bind, mapMat, h1, h2, h3, pyAssert, ← H.mul, ← H.add, this, hS]
    unfold moorePoly
    rw [hM]
    simp only [bind, Except.bind, List.length_cons, List.length_nil, Nat.reduceAdd]
    rw [hg]
    simp only
    rw [ht]
    by_cases hS : a ^ 2 + a * b + b ^ 2 = 0
    · simp [hS]
    · simp [hS]
  · intro h2 x hx
    have h : (2 : K) = 0 := CharP.ofNat_eq_zero K 2
    rcases hx with rfl | rfl | rfl | rfl
    · ring
    · ring
    · ring
    · linear_combination (a * b ^ 3 + a ^ 2 * b ^ 2 * 2 + a ^ 3 * b) * h

example : moorePoly (K := Zp 7) id (fun _ _ _ => false) (fun _ => true) [const 1, const 2] = .ok [const 1] ∧
    moorePoly (K := Zp 7) id (fun _ _ _ => false) (fun _ => true) [const 1, const 3] = .error .assertion := by
  constructor
  · rw [(C88_check_refuted id _ _ 1 2 (by decide +kernel) (by decide +kernel) (by decide +kernel)).1, if_pos (by decide +kernel)]
    exact congrArg Except.ok (by decide +kernel)
  · rw [(C88_check_refuted id _ _ 1 3 (by decide +kernel) (by decide +kernel) (by decide +kernel)).1, if_neg (by decide +kernel)]

/-! ### `max` -/

/-- modp.py:84-85, poly_utils.py:149: whether the text of an integer modulo `p` starts with the character `1`. -/
def textStarts1 (p : Nat) (c : Zp p) : Bool := (Text.modStr c.1).head? = some '1'

/-- The number whose binary digits are the coefficients: the usual order of polynomials over Z/2. -/
def binaryValue : List (Zp 2) → Nat
  | [] => 0
  | c :: l => c.1.toNat + 2 * binaryValue l

/-- **C126, degrees.** Whatever the coefficients, `max(a, b)` is 1 if `a` has the larger degree and 0 if `b` has. -/
theorem C126_degree (same : Nat → Bool) (startsWith1 : K → Bool) (a b : CPoly K) :
    (b.val.degree < a.val.degree → maxPoly same startsWith1 a.1 b.1 = true) ∧
    (a.val.degree < b.val.degree → maxPoly same startsWith1 a.1 b.1 = false) := by
  have key : ∀ x y : CPoly K, x.val.degree < y.val.degree → x.1.length < y.1.length := by
    intro x y h
    by_contra hle
    rcases Nat.lt_or_ge y.1.length x.1.length with h1 | h1
    · exact lt_asymm h (degree_lt_of_length_lt y.2 x.2 h1)
    · have h2 := (degree_toPoly_lt_iff x.2 (y.1.length - 1)).not.mpr
      by_cases h0 : y.1 = []
      · have : y.val = 0 := by rw [CPoly.val, h0, toPoly_nil]
        rw [this] at h
        simp at h
      · have hpos : 0 < y.1.length := List.length_pos_of_ne_nil h0
        have h5 : ((y.1.length - 1 : Nat) : WithBot Nat) ≤ x.val.degree := not_lt.mp (h2 (by omega))
        have h6 := lt_of_le_of_lt h5 h
        have h7 : y.val.degree ≤ y.val.natDegree := Polynomial.degree_le_natDegree
        rw [CPoly.val, natDegree_toPoly y.2] at h7
        exact absurd h7 (not_le.mpr h6)
  unfold maxPoly degree pabs
  constructor
  · intro h
    have := key _ _ h
    rw [if_pos (by omega)]
  · intro h
    have := key _ _ h
    rw [if_neg (by omega), if_pos (by omega)]

theorem zp2_cases (c : Zp 2) : (c = 0 ∧ c.1.toNat = 0) ∨ (c = 1 ∧ c.1.toNat = 1) := by
  obtain ⟨n, h0, h1⟩ := c
  have : n = 0 ∨ n = 1 := by push_cast at h1; omega
  rcases this with rfl | rfl
  · exact Or.inl ⟨rfl, rfl⟩
  · exact Or.inr ⟨rfl, rfl⟩

theorem binaryValue_append (l : List (Zp 2)) (c : Zp 2) : binaryValue (l ++ [c]) = binaryValue l + c.1.toNat * 2 ^ l.length := by
  induction l with
  | nil => simp [binaryValue]
  | cons x l ih => simp only [List.cons_append, binaryValue, ih, List.length_cons, pow_succ]; ring

theorem binaryValue_lt (l : List (Zp 2)) : binaryValue l < 2 ^ l.length := by
  induction l with
  | nil => simp [binaryValue]
  | cons x l ih =>
    simp only [binaryValue, List.length_cons, pow_succ]
    rcases zp2_cases x with ⟨-, h⟩ | ⟨-, h⟩ <;> omega

theorem le_binaryValue (l : List (Zp 2)) (hl : Canon l) (h : l ≠ []) : 2 ^ (l.length - 1) ≤ binaryValue l := by
  obtain ⟨l, c, rfl⟩ := List.eq_nil_or_concat l |>.resolve_left h
  have hc : c ≠ 0 := hl c (by simp)
  rcases zp2_cases c with ⟨h0, -⟩ | ⟨-, h1⟩
  · exact absurd h0 hc
  · rw [List.concat_eq_append, binaryValue_append, h1]
    simp

theorem textStarts1_two (c : Zp 2) : textStarts1 2 c = true ↔ c = 1 := by
  rcases zp2_cases c with ⟨rfl, -⟩ | ⟨rfl, -⟩ <;> decide +kernel

/-- The loop of `max` over Z/2, from the position where `m` coefficients are left. -/
theorem tieLoop_two (same : Nat → Bool) (a b : List (Zp 2)) (hl : a.length = b.length)
    (hsame : ∀ i, i < a.length → (same i = true ↔ a.getD (a.length - 1 - i) 0 = b.getD (a.length - 1 - i) 0)) :
    ∀ m i, i + m = a.length → (tieLoop same (textStarts1 2) a i m = true ↔ binaryValue (b.take m) ≤ binaryValue (a.take m)) := by
  intro m
  induction m with
  | zero => intro i _; simp [tieLoop]
  | succ m ih =>
    intro i hi
    have e : a.length - 1 - i = m := by omega
    have ha : m < a.length := by omega
    have hb : m < b.length := by omega
    have h1 := hsame i (by omega)
    rw [e] at h1
    have ta : a.take (m + 1) = a.take m ++ [a.getD m 0] := by
      rw [List.take_add_one, List.getElem?_eq_getElem ha, List.getD_eq_getElem _ _ ha]; rfl
    have tb : b.take (m + 1) = b.take m ++ [b.getD m 0] := by
      rw [List.take_add_one, List.getElem?_eq_getElem hb, List.getD_eq_getElem _ _ hb]; rfl
    rw [ta, tb, binaryValue_append, binaryValue_append, List.length_take, List.length_take, min_eq_left ha.le, min_eq_left hb.le, tieLoop, e]
    have va := binaryValue_lt (a.take m)
    have vb := binaryValue_lt (b.take m)
    rw [List.length_take, min_eq_left ha.le] at va
    rw [List.length_take, min_eq_left hb.le] at vb
    by_cases hs : same i = true
    · rw [if_pos hs, ih (i + 1) (by omega), h1.mp hs]
      omega
    · rw [if_neg hs, textStarts1_two]
      have hne : a.getD m 0 ≠ b.getD m 0 := fun h => hs (h1.mpr h)
      rcases zp2_cases (a.getD m 0) with ⟨x0, x1⟩ | ⟨x0, x1⟩ <;> rcases zp2_cases (b.getD m 0) with ⟨y0, y1⟩ | ⟨y0, y1⟩
      · exact absurd (x0.trans y0.symm) hne
      · rw [x1, y1, x0]
        constructor
        · intro h; exact absurd h (by decide +kernel)
        · intro h; omega
      · rw [x1, y1, x0]
        constructor
        · intro h; omega
        · intro h; rfl
      · exact absurd (x0.trans y0.symm) hne

/-- **C126, polynomials over Z/2.** If identical objects are the same as equal coefficients, `max(a, b)` is 1 exactly when `a` is at least `b`
in the usual order. -/
theorem C126_order_partial (same : Nat → Bool) (a b : CPoly (Zp 2))
    (hsame : ∀ i, i < a.1.length → a.1.length = b.1.length → (same i = true ↔ a.1.getD (a.1.length - 1 - i) 0 = b.1.getD (a.1.length - 1 - i) 0)) :
    maxPoly same (textStarts1 2) a.1 b.1 = true ↔ binaryValue b.1 ≤ binaryValue a.1 := by
  have long : ∀ x y : CPoly (Zp 2), x.1.length < y.1.length → binaryValue x.1 < binaryValue y.1 := by
    intro x y h
    have h1 := binaryValue_lt x.1
    have h2 := le_binaryValue y.1 y.2 (by intro e; rw [e] at h; simp at h)
    have h3 : 2 ^ x.1.length ≤ 2 ^ (y.1.length - 1) := Nat.pow_le_pow_right (by omega) (by omega)
    omega
  unfold maxPoly degree pabs
  by_cases h1 : b.1.length < a.1.length
  · rw [if_pos (by omega)]
    simp [(long b a h1).le]
  · rw [if_neg (by omega)]
    by_cases h2 : a.1.length < b.1.length
    · rw [if_pos (by omega)]
      simp [long a b h2]
    · rw [if_neg (by omega)]
      have hl : a.1.length = b.1.length := by omega
      have := tieLoop_two same a.1 b.1 hl (fun i hi => hsame i hi hl) a.1.length 0 (by omega)
      rw [List.take_length, hl, List.take_length] at this
      rw [← this, show ((a.1.length : Int) - 1 + 1).toNat = b.1.length by omega]

example : ∃ a b : CPoly (Zp 2), a ≠ b ∧ a.1.length = b.1.length ∧
    maxPoly (fun i => a.1.getD (a.1.length - 1 - i) 0 == b.1.getD (a.1.length - 1 - i) 0) (textStarts1 2) a.1 b.1 = true ∧
    maxPoly (fun i => a.1.getD (a.1.length - 1 - i) 0 == b.1.getD (a.1.length - 1 - i) 0) (textStarts1 2) b.1 a.1 = false :=
  ⟨CPoly.mk [0, 1, 1], CPoly.mk [1, 0, 1], by decide +kernel, by decide +kernel, by decide +kernel, by decide +kernel⟩

/-- **C126 is false** of coefficients that are equal but not the same object: then `max` calls each of two polynomials over Z/2 of the same degree
the bigger. -/
theorem C126_identity_refuted (a b : CPoly (Zp 2)) (h : a.val.degree = b.val.degree) :
    maxPoly (fun _ => false) (textStarts1 2) a.1 b.1 = true ∧ maxPoly (fun _ => false) (textStarts1 2) b.1 a.1 = true := by
  have hl : a.1.length = b.1.length := by
    rcases Nat.lt_trichotomy a.1.length b.1.length with h1 | h1 | h1
    · exact absurd h (degree_lt_of_length_lt a.2 b.2 h1).ne
    · exact h1
    · exact absurd h (degree_lt_of_length_lt b.2 a.2 h1).ne'
  have key : ∀ x y : CPoly (Zp 2), x.1.length = y.1.length → maxPoly (fun _ => false) (textStarts1 2) x.1 y.1 = true := by
    intro x y h
    unfold maxPoly degree pabs
    rw [if_neg (by omega), if_neg (by omega), show ((x.1.length : Int) - 1 + 1).toNat = x.1.length by omega]
    by_cases h0 : x.1 = []
    · rw [h0]; rfl
    · obtain ⟨l, c, e⟩ := List.eq_nil_or_concat x.1 |>.resolve_left h0
      have hc : c ≠ 0 := x.2 c (by rw [e]; simp)
      rw [e, List.concat_eq_append, List.length_append, List.length_singleton, tieLoop, if_neg (by simp), textStarts1_two]
      rcases zp2_cases c with ⟨h0, -⟩ | ⟨h1, -⟩
      · exact absurd h0 hc
      · simp [h1]
  exact ⟨key a b hl, key b a hl.symm⟩

example : ∃ a b : CPoly (Zp 2), a ≠ b ∧ a.1.length = b.1.length := ⟨CPoly.mk [0, 1], CPoly.mk [1, 1], by decide +kernel, by decide +kernel⟩

/-- **C126 is false** of larger primes, also if identity is equality: 1 is bigger than 2. -/
theorem C126_text_refuted : maxPoly (K := Zp 3) (fun _ => false) (textStarts1 3) [2] [1] = false ∧
    maxPoly (K := Zp 3) (fun _ => false) (textStarts1 3) [1] [2] = true := by decide +kernel

end Verif.Props
