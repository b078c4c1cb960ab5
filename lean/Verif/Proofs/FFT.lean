import Verif.Model.FFT
import Verif.Proofs.Polynomial
import Verif.Proofs.PolyUtils
import Verif.Proofs.Utils
import Mathlib.RingTheory.RootsOfUnity.PrimitiveRoots
import Mathlib.FieldTheory.Finite.Basic
/-! # The fast Fourier transform -/

set_option linter.unusedSectionVars false

namespace Verif.FFT
open Poly PolyUtils
open scoped Polynomial
open Polynomial (C X)

section lists
variable {α : Type _}

theorem evens_getElem? : ∀ (l : List α) (i : Nat), (evens l)[i]? = l[2 * i]?
  | [], i => by simp [evens]
  | [a], 0 => rfl
  | [a], i + 1 => by simp [evens]
  | a :: b :: l, 0 => rfl
  | a :: b :: l, i + 1 => by
    rw [evens, List.getElem?_cons_succ, evens_getElem? l i]
    show _ = (a :: b :: l)[2 * i + 1 + 1]?
    rw [List.getElem?_cons_succ, List.getElem?_cons_succ]

theorem evens_length : ∀ l : List α, (evens l).length = (l.length + 1) / 2
  | [] => by simp [evens]
  | [a] => by simp [evens]
  | a :: b :: l => by rw [evens, List.length_cons, evens_length l, List.length_cons, List.length_cons]; omega

theorem odds_length (l : List α) : (odds l).length = l.length / 2 := by
  rw [odds, evens_length, List.length_tail]; omega

theorem evens_eval {K : Type _} [CommRing K] (x : K) : ∀ v : List K,
    (toPoly v).eval x = (toPoly (evens v)).eval (x ^ 2) + x * (toPoly (odds v)).eval (x ^ 2)
  | [] => by simp [evens, odds, toPoly_nil]
  | [a] => by simp [evens, odds, toPoly_nil, toPoly_cons]
  | a :: b :: l => by
    have h := evens_eval x l
    have e : odds (a :: b :: l) = b :: odds l := by
      cases l with
      | nil => rfl
      | cons c l => rfl
    rw [e, evens]
    simp only [toPoly_cons, Polynomial.eval_add, Polynomial.eval_mul, Polynomial.eval_X, Polynomial.eval_C]
    rw [h]; ring

end lists

variable {K : Type _} [Field K] [DecidableEq K]

/-- `[1, u, …, u^(n-1)]` -/
def powers (u : K) (n : Nat) : List K := (List.range n).map fun i => u ^ i

@[simp] theorem powers_length (u : K) (n : Nat) : (powers u n).length = n := by simp [powers]

theorem powers_getElem? (u : K) (n i : Nat) (h : i < n) : (powers u n)[i]? = some (u ^ i) := by
  simp [powers, h]

theorem evens_powers (u : K) (h : Nat) : evens (powers u (2 * h)) = powers (u ^ 2) h := by
  apply List.ext_getElem?
  intro i
  rw [evens_getElem?]
  by_cases hi : i < h
  · rw [powers_getElem? _ _ _ hi, powers_getElem? _ _ _ (by omega), pow_mul]
  · rw [List.getElem?_eq_none (by simp; omega), List.getElem?_eq_none (by simp; omega)]

/-- The evaluations at the powers of `u`. -/
noncomputable def dft (u : K) (n : Nat) (v : List K) : List K := (List.range n).map fun i => (toPoly v).eval (u ^ i)

@[simp] theorem dft_length (u : K) (n : Nat) (v : List K) : (dft u n v).length = n := by simp [dft]

theorem dft_getElem? (u : K) (n : Nat) (v : List K) (i : Nat) (h : i < n) : (dft u n v)[i]? = some ((toPoly v).eval (u ^ i)) := by
  simp [dft, h]

theorem eval_toPoly (v : List K) (x : K) : (toPoly v).eval x = ∑ j ∈ Finset.range v.length, v.getD j 0 * x ^ j := by
  induction v with
  | nil => simp [toPoly_nil]
  | cons a v ih =>
    rw [toPoly_cons, Polynomial.eval_add, Polynomial.eval_mul, Polynomial.eval_C, Polynomial.eval_X, ih, List.length_cons,
      Finset.sum_range_succ', Finset.mul_sum]
    simp only [List.getD_cons_succ, List.getD_cons_zero, pow_zero, mul_one]
    rw [add_comm]
    congr 1
    apply Finset.sum_congr rfl
    intro j _
    ring

/-! ### The base case -/

theorem simpleRow_ok (vals : List K) (u : K) (L : Nat) (hL : vals.length = L) (hu : u ^ L = 1) (i : Nat) :
    ∀ (n j : Nat) (last : K), j + n = L →
    simpleRow vals (powers u L) i n j last = .ok (last + ∑ k ∈ Finset.Ico j L, vals.getD k 0 * u ^ (i * k))
  | 0, j, last, h => by simp at h; subst h; simp [simpleRow]
  | n + 1, j, last, h => by
    have h1 : j < vals.length := by omega
    have hpos : 0 < L := by omega
    have hm : i * j % L < L := Nat.mod_lt _ hpos
    have e1 : pyIdx vals j = .ok vals[j] := by simp [pyIdx, List.getElem?_eq_getElem h1]
    have e2 : pyIdx (powers u L) (i * j % (powers u L).length) = .ok (u ^ (i * j)) := by
      rw [powers_length, pyIdx, powers_getElem? _ _ _ hm]
      simp only
      rw [← pow_mod_orderOf u (i * j), ← pow_mod_orderOf u (i * j % L),
        Nat.mod_mod_of_dvd _ (orderOf_dvd_of_pow_eq_one hu)]
    rw [simpleRow]
    simp only [e1, e2, bind, Except.bind]
    rw [simpleRow_ok vals u L hL hu i n (j + 1) _ (by omega), Finset.sum_eq_sum_Ico_succ_bot (by omega : j < L)]
    congr 1
    rw [List.getD_eq_getElem?_getD, List.getElem?_eq_getElem h1, Option.getD_some]
    ring

theorem simpleFt_ok (vals : List K) (u : K) (L : Nat) (hL : vals.length = L) (hu : u ^ L = 1) :
    simpleFt vals (powers u L) = .ok (dft u L vals) := by
  rw [simpleFt, powers_length, dft]
  apply pyMap_ok
  intro i _
  rw [simpleRow_ok vals u L hL hu i L 0 0 (by omega), zero_add, eval_toPoly, hL, Finset.range_eq_Ico]
  congr 1
  apply Finset.sum_congr rfl
  intro j _
  rw [pow_mul]

/-! ### The butterfly -/

theorem butterfly_ok (roots : List K) (h : Nat) : ∀ (l : List (K × K)) (i : Nat) (o : List K), i + l.length = h →
    o.length = 2 * h → h ≤ roots.length →
    ∃ o', butterfly roots h l i o = .ok o' ∧ o'.length = 2 * h ∧
      (∀ j, j < i → o'[j]? = o[j]? ∧ o'[j + h]? = o[j + h]?) ∧
      (∀ j, i ≤ j → j < h → ∃ x y, l[j - i]? = some (x, y) ∧ o'[j]? = some (x + y * roots.getD j 0) ∧
        o'[j + h]? = some (x - y * roots.getD j 0))
  | [], i, o, hi, ho, hr => ⟨o, rfl, ho, fun j _ => ⟨rfl, rfl⟩, fun j h1 h2 => by simp at hi; omega⟩
  | (x, y) :: rest, i, o, hi, ho, hr => by
    simp only [List.length_cons] at hi
    have hir : i < roots.length := by omega
    have e1 : pyIdx roots i = .ok (roots.getD i 0) := by
      simp [pyIdx, List.getElem?_eq_getElem hir]
    set z := roots.getD i 0
    have e2 : pySet o i (x + y * z) = .ok (o.set i (x + y * z)) := by rw [pySet, if_pos (by omega)]
    have e3 : pySet (o.set i (x + y * z)) (i + h) (x - y * z) = .ok ((o.set i (x + y * z)).set (i + h) (x - y * z)) := by
      rw [pySet, if_pos (by simp; omega)]
    obtain ⟨o', g1, g2, g3, g4⟩ := butterfly_ok roots h rest (i + 1) ((o.set i (x + y * z)).set (i + h) (x - y * z)) (by omega)
      (by simp [ho]) hr
    refine ⟨o', ?_, g2, ?_, ?_⟩
    · rw [butterfly]
      simp only [e1, e2, e3, bind, Except.bind, g1]
    · intro j hj
      obtain ⟨a, b⟩ := g3 j (by omega)
      rw [a, b]
      constructor <;> rw [List.getElem?_set_ne (by omega), List.getElem?_set_ne (by omega)]
    · intro j h1 h2
      rcases Nat.eq_or_lt_of_le h1 with rfl | h3
      · obtain ⟨a, b⟩ := g3 i (by omega)
        refine ⟨x, y, by simp, ?_, ?_⟩
        · rw [a, List.getElem?_set_ne (by omega), List.getElem?_set_self (by omega)]
        · rw [b, List.getElem?_set_self (by simp; omega)]
      · obtain ⟨x', y', a, b, c⟩ := g4 j (by omega) h2
        refine ⟨x', y', ?_, b, c⟩
        rw [show j - i = (j - (i + 1)) + 1 by omega, List.getElem?_cons_succ]; exact a

/-! ### The transform -/

/-- The sizes the recursion handles: it halves down to a base case of 1 to 4 without meeting an odd size above 4. -/
inductive Good : Nat → Prop
  | base (n : Nat) (h1 : 1 ≤ n) (h2 : n ≤ 4) : Good n
  | double (h : Nat) (hg : Good h) : Good (2 * h)

theorem Good.pos {n : Nat} (h : Good n) : 1 ≤ n := by
  induction h with
  | base n h1 _ => exact h1
  | double h _ ih => omega

theorem good_iff (n : Nat) : Good n ↔ ∃ k, n = 2 ^ k ∨ n = 3 * 2 ^ k := by
  constructor
  · intro h
    induction h with
    | base n h1 h2 =>
      interval_cases n
      · exact ⟨0, Or.inl rfl⟩
      · exact ⟨1, Or.inl rfl⟩
      · exact ⟨0, Or.inr rfl⟩
      · exact ⟨2, Or.inl rfl⟩
    | double h _ ih =>
      obtain ⟨k, rfl | rfl⟩ := ih
      · exact ⟨k + 1, Or.inl (by ring)⟩
      · exact ⟨k + 1, Or.inr (by ring)⟩
  · rintro ⟨k, rfl | rfl⟩
    · induction k with
      | zero => exact .base 1 (by omega) (by omega)
      | succ k ih => rw [pow_succ, mul_comm]; exact .double _ ih
    · induction k with
      | zero => exact .base 3 (by omega) (by omega)
      | succ k ih => rw [show 3 * 2 ^ (k + 1) = 2 * (3 * 2 ^ k) by ring]; exact .double _ ih

theorem pow_half {u : K} {h : Nat} (hh : 0 < h) (hu : orderOf u = 2 * h) : u ^ h = -1 := by
  have h1 : u ^ h * u ^ h = 1 := by rw [← pow_add, ← two_mul, ← hu, pow_orderOf_eq_one]
  rcases mul_self_eq_one_iff.1 h1 with h2 | h2
  · have := orderOf_dvd_of_pow_eq_one h2
    rw [hu] at this
    have := Nat.le_of_dvd hh this
    omega
  · exact h2

theorem order_sq {u : K} {h : Nat} (hu : orderOf u = 2 * h) : orderOf (u ^ 2) = h := by
  rw [orderOf_pow' u (by omega), hu, Nat.gcd_eq_right (by omega), Nat.mul_div_cancel_left _ (by omega)]

theorem fftRec_ok {n : Nat} (hg : Good n) : ∀ (fuel : Nat) (u : K) (vals : List K), orderOf u = n → vals.length = n →
    n < fuel → fftRec fuel vals (powers u n) = .ok (dft u n vals) := by
  induction hg with
  | base n h1 h2 =>
    intro fuel u vals hu hv hf
    obtain ⟨f, rfl⟩ : ∃ f, fuel = f + 1 := ⟨fuel - 1, by omega⟩
    rw [fftRec, if_pos (by omega)]
    exact simpleFt_ok vals u n hv (by rw [← hu, pow_orderOf_eq_one])
  | double h hg ih =>
    intro fuel u vals hu hv hf
    have hpos := hg.pos
    obtain ⟨f, rfl⟩ : ∃ f, fuel = f + 1 := ⟨fuel - 1, by omega⟩
    rw [fftRec]
    by_cases h4 : vals.length ≤ 4
    · rw [if_pos h4]
      exact simpleFt_ok vals u _ hv (by rw [← hu, pow_orderOf_eq_one])
    rw [if_neg h4, evens_powers]
    have hsq := order_sq hu
    have e1 := ih f (u ^ 2) (evens vals) hsq (by rw [evens_length, hv]; omega) (by omega)
    have e2 := ih f (u ^ 2) (odds vals) hsq (by rw [odds_length, hv]; omega) (by omega)
    obtain ⟨o', g1, g2, -, g4⟩ := butterfly_ok (powers u (2 * h)) h ((dft (u ^ 2) h (evens vals)).zip (dft (u ^ 2) h (odds vals)))
      0 (vals.map fun _ => 0) (by simp) (by simp [hv]) (by simp; omega)
    simp only [e1, e2, bind, Except.bind, dft_length, g1]
    congr 1
    apply List.ext_getElem?
    intro j
    have key : ∀ j, j < h → o'[j]? = some ((toPoly vals).eval (u ^ j)) ∧ o'[j + h]? = some ((toPoly vals).eval (u ^ (j + h))) := by
      intro j hj
      obtain ⟨x, y, a, b, c⟩ := g4 j (by omega) hj
      rw [Nat.sub_zero, List.getElem?_zip_eq_some, dft_getElem? _ _ _ _ hj, dft_getElem? _ _ _ _ hj] at a
      simp only [Option.some.injEq] at a
      have er : (powers u (2 * h)).getD j 0 = u ^ j := by
        rw [List.getD_eq_getElem?_getD, powers_getElem? _ _ _ (by omega)]; rfl
      rw [b, c, evens_eval (u ^ j), evens_eval (u ^ (j + h)), ← a.1, ← a.2, er]
      have s1 : (u ^ j) ^ 2 = (u ^ 2) ^ j := by ring
      have s2 : (u ^ (j + h)) ^ 2 = (u ^ 2) ^ j := by
        rw [← s1, pow_add, mul_pow, pow_half (by omega) hu]; ring
      have s3 : u ^ (j + h) = -u ^ j := by rw [pow_add, pow_half (by omega) hu]; ring
      rw [s1, s2, s3]
      constructor <;> congr 1 <;> ring
    rcases Nat.lt_or_ge j h with hj | hj
    · rw [(key j hj).1, dft_getElem? _ _ _ _ (by omega)]
    · rcases Nat.lt_or_ge j (2 * h) with hj2 | hj2
      · have := (key (j - h) (by omega)).2
        rw [Nat.sub_add_cancel hj] at this
        rw [this, dft_getElem? _ _ _ _ hj2]
      · rw [List.getElem?_eq_none (by omega), List.getElem?_eq_none (by simp; omega)]

theorem fft_ok {n : Nat} (hg : Good n) (u : K) (vals : List K) (hu : orderOf u = n) (hv : vals.length = n) :
    fft vals (powers u n) = .ok (dft u n vals) := fftRec_ok hg _ u vals hu hv (by omega)

/-! ### Other sizes -/

/-- The only exception is `IndexError`. -/
def Fine {α : Type _} (r : Py α) : Prop := (∃ a, r = .ok a) ∨ r = .error .indexError

theorem pyIdx_fine {α : Type _} (l : List α) (i : Nat) : Fine (pyIdx l i) := by
  unfold pyIdx; split
  · exact Or.inl ⟨_, rfl⟩
  · exact Or.inr rfl

theorem Fine.bind {α β : Type _} {r : Py α} {f : α → Py β} (h : Fine r) (hf : ∀ a, Fine (f a)) : Fine (r >>= f) := by
  rcases h with ⟨a, rfl⟩ | rfl
  · exact hf a
  · exact Or.inr rfl

theorem simpleRow_fine (vals roots : List K) (i : Nat) : ∀ (n j : Nat) (last : K), Fine (simpleRow vals roots i n j last)
  | 0, _, last => Or.inl ⟨last, rfl⟩
  | n + 1, _, _ => (pyIdx_fine _ _).bind fun _ => (pyIdx_fine _ _).bind fun _ => simpleRow_fine vals roots i n _ _

theorem pyMap_fine {α β : Type _} (f : α → Py β) (hf : ∀ a, Fine (f a)) : ∀ l, Fine (pyMap f l)
  | [] => Or.inl ⟨_, rfl⟩
  | a :: l => (hf a).bind fun _ => (pyMap_fine f hf l).bind fun _ => Or.inl ⟨_, rfl⟩

theorem pySet_fine {α : Type _} (l : List α) (i : Nat) (a : α) : Fine (pySet l i a) := by
  unfold pySet; split
  · exact Or.inl ⟨_, rfl⟩
  · exact Or.inr rfl

theorem butterfly_fine (roots : List K) (h : Nat) : ∀ l i o, Fine (butterfly roots h l i o)
  | [], _, o => Or.inl ⟨o, rfl⟩
  | (_, _) :: rest, _, _ => (pyIdx_fine _ _).bind fun _ => (pySet_fine _ _ _).bind fun _ => (pySet_fine _ _ _).bind fun _ =>
      butterfly_fine roots h rest _ _

theorem fftRec_fine : ∀ (fuel : Nat) (vals roots : List K), vals.length < fuel → Fine (fftRec fuel vals roots)
  | 0, _, _, h => by omega
  | f + 1, vals, roots, h => by
    rw [fftRec]
    split
    · exact pyMap_fine _ (fun i => simpleRow_fine _ _ _ _ _ _) _
    · exact (fftRec_fine f _ _ (by rw [evens_length]; omega)).bind fun _ =>
        (fftRec_fine f _ _ (by rw [odds_length]; omega)).bind fun _ => butterfly_fine _ _ _ _ _

theorem simpleRow_short (vals roots : List K) (i : Nat) : ∀ (n j : Nat) (last : K), j ≤ vals.length → vals.length < j + n →
    simpleRow vals roots i n j last = .error .indexError
  | 0, j, _, h, h' => by omega
  | n + 1, j, last, h, h' => by
    rw [simpleRow]
    rcases Nat.eq_or_lt_of_le h with h1 | h1
    · have : pyIdx vals j = .error .indexError := by rw [pyIdx, List.getElem?_eq_none (by omega)]
      rw [this]; rfl
    · have e1 : pyIdx vals j = .ok vals[j] := by simp [pyIdx, List.getElem?_eq_getElem h1]
      rw [e1]
      rcases pyIdx_fine roots (i * j % roots.length) with ⟨r, hr⟩ | hr
      · simp only [hr, bind, Except.bind]
        exact simpleRow_short vals roots i n (j + 1) _ (by omega) (by omega)
      · rw [hr]; rfl

/-- Fewer values than roots: `IndexError`. -/
theorem fftRec_short : ∀ (fuel : Nat) (vals roots : List K), vals.length < fuel → vals.length < roots.length →
    fftRec fuel vals roots = .error .indexError
  | 0, _, _, h, _ => by omega
  | f + 1, vals, roots, h, hlt => by
    rw [fftRec]
    split
    · rw [simpleFt, List.range_eq_range']
      obtain ⟨k, hk⟩ : ∃ k, roots.length = k + 1 := ⟨roots.length - 1, by omega⟩
      rw [hk, List.range'_succ, pyMap, ← hk, simpleRow_short vals roots 0 roots.length 0 0 (by omega) (by omega)]
      rfl
    · have h2 := fftRec_short f (odds vals) (evens roots) (by rw [odds_length]; omega) (by rw [odds_length, evens_length]; omega)
      rcases fftRec_fine f (evens vals) (evens roots) (by rw [evens_length]; omega) with ⟨L, hL⟩ | hL
      · rw [hL]; simp only [bind, Except.bind, h2]
      · rw [hL]; rfl

/-- Sizes other than `2^k` and `3·2^k`: `IndexError`. -/
theorem fftRec_bad : ∀ (fuel : Nat) (vals roots : List K), vals.length < fuel → vals.length = roots.length →
    1 ≤ vals.length → ¬ Good vals.length → fftRec fuel vals roots = .error .indexError
  | 0, _, _, h, _, _, _ => by omega
  | f + 1, vals, roots, h, heq, h1, hb => by
    rw [fftRec]
    have h4 : ¬ vals.length ≤ 4 := fun h4 => hb (.base _ h1 h4)
    rw [if_neg h4]
    by_cases hpar : vals.length % 2 = 0
    · have hb' : ¬ Good (evens vals).length := by
        intro hg
        have := Good.double _ hg
        rw [evens_length] at this
        exact hb (by convert this using 1; omega)
      rw [fftRec_bad f (evens vals) (evens roots) (by rw [evens_length]; omega) (by rw [evens_length, evens_length, heq])
        (by rw [evens_length]; omega) hb']
      rfl
    · have h2 := fftRec_short f (odds vals) (evens roots) (by rw [odds_length]; omega) (by rw [odds_length, evens_length]; omega)
      rcases fftRec_fine f (evens vals) (evens roots) (by rw [evens_length]; omega) with ⟨L, hL⟩ | hL
      · rw [hL]; simp only [bind, Except.bind, h2]
      · rw [hL]; rfl

/-! ### Roots, padding -/

theorem rootz_ok (w : K) (n : Nat) (hn : 1 ≤ n) (hw : orderOf w = n) (fuel : Nat) (hf : n ≤ fuel) :
    rootz fuel w = .ok (powers w (n + 1)) := by
  obtain ⟨k, rfl⟩ : ∃ k, n = k + 1 := ⟨n - 1, by omega⟩
  have h := Utils.cycleLoop_ok w (k + 1) (by rw [← hw, pow_orderOf_eq_one]) k 1 fuel [1, w] (by omega) (by
    intro j h1 h2; exact pow_ne_one_of_lt_orderOf (by omega) (by omega)) (by omega)
  rw [pow_one] at h
  rw [rootz, h]
  congr 1
  rw [powers, List.range_eq_range', List.range'_succ, List.range'_succ]; simp

theorem rootz_div (w : K) (hw : orderOf w = 0) (fuel : Nat) : rootz fuel w = .error .diverge := by
  have h : ∀ j, 0 < j → w ^ j ≠ 1 := fun j hj hc => by
    have := orderOf_dvd_of_pow_eq_one hc
    rw [hw, zero_dvd_iff] at this; omega
  have := Utils.cycleLoop_div w h fuel 1 [1, w] (by omega)
  rwa [pow_one] at this

theorem powers_dropLast (w : K) (n : Nat) : (powers w (n + 1)).dropLast = powers w n := by
  simp [powers, List.range_succ]

theorem powers_reverse (w : K) (n : Nat) (hn : w ^ n = 1) : (powers w (n + 1)).tail.reverse = powers w⁻¹ n := by
  have hw0 : n = 0 ∨ w ≠ 0 := by
    by_cases h : n = 0
    · exact Or.inl h
    · right; rintro rfl; rw [zero_pow h] at hn; exact zero_ne_one hn
  apply List.ext_getElem (by simp)
  intro i h1 h2
  simp only [powers_length] at h2
  have hw : w ≠ 0 := by rcases hw0 with h | h; omega; exact h
  rw [List.getElem_reverse]
  simp only [powers, List.length_tail, List.length_map, List.length_range, List.getElem_tail, List.getElem_map, List.getElem_range]
  rw [inv_pow]
  refine eq_inv_of_mul_eq_one_left ?_
  rw [← pow_add, ← hn]
  congr 1; omega

theorem pad_length (w : K) (n : Nat) (v : List K) (h : v.length ≤ n) : (pad (powers w (n + 1)) v).length = n := by
  rw [pad, powers_length]
  split
  · simp; omega
  · omega

theorem toPoly_pad (rz v : List K) : toPoly (pad rz v) = toPoly v := by
  rw [pad]; split
  · rw [toPoly_append, toPoly_replicate_zero, mul_zero, add_zero]
  · rfl

theorem dft_congr (u : K) (n : Nat) {v v' : List K} (h : toPoly v = toPoly v') : dft u n v = dft u n v' := by
  rw [dft, dft, h]

/-! ### Orthogonality -/

theorem primitive {w : K} {n : Nat} (hw : orderOf w = n) : IsPrimitiveRoot w n := hw ▸ IsPrimitiveRoot.orderOf w

/-- `Σ_i (Σ_j f_j w^(ij)) w^(-ik) = n f_k`. -/
theorem orthogonal {w : K} {n : Nat} (hn : 1 ≤ n) (hw : orderOf w = n) (c : Nat → K) (k : Nat) (hk : k < n) :
    ∑ i ∈ Finset.range n, (∑ j ∈ Finset.range n, c j * (w ^ i) ^ j) * (w⁻¹ ^ k) ^ i = n * c k := by
  have hp := primitive hw
  have hw0 : w ≠ 0 := hp.ne_zero (by omega)
  have e : ∀ i ∈ Finset.range n, (∑ j ∈ Finset.range n, c j * (w ^ i) ^ j) * (w⁻¹ ^ k) ^ i =
      ∑ j ∈ Finset.range n, c j * (w ^ j * w⁻¹ ^ k) ^ i := by
    intro i _
    rw [Finset.sum_mul]
    apply Finset.sum_congr rfl
    intro j _
    rw [mul_pow, ← pow_mul w i j, mul_comm i j, pow_mul]; ring
  rw [Finset.sum_congr rfl e, Finset.sum_comm]
  have e2 : ∀ j ∈ Finset.range n, ∑ i ∈ Finset.range n, c j * (w ^ j * w⁻¹ ^ k) ^ i = if j = k then n * c k else 0 := by
    intro j hj
    rw [Finset.mem_range] at hj
    rw [← Finset.mul_sum]
    split
    · next h =>
      subst h
      rw [← mul_pow, mul_inv_cancel₀ hw0]; simp [mul_comm]
    · next h =>
      set z := w ^ j * w⁻¹ ^ k with hz
      have hz1 : z ≠ 1 := by
        intro h1
        rw [hz, inv_pow, mul_inv_eq_one₀ (pow_ne_zero _ hw0)] at h1
        exact h (hp.pow_inj hj hk h1)
      have hzn : z ^ n = 1 := by
        rw [hz, mul_pow, ← pow_mul, ← pow_mul, mul_comm j, mul_comm k, pow_mul, pow_mul, inv_pow, hp.pow_eq_one]; simp
      have := mul_neg_geom_sum z n
      rw [hzn, sub_self] at this
      rw [(mul_eq_zero.1 this).resolve_left (sub_ne_zero.2 (Ne.symm hz1)), mul_zero]
  rw [Finset.sum_congr rfl e2, Finset.sum_ite_eq' (Finset.range n) k, if_pos (Finset.mem_range.2 hk)]

theorem order_inv {w : K} {n : Nat} (hw : orderOf w = n) : orderOf w⁻¹ = n := by
  by_cases h0 : w = 0
  · subst h0; rw [inv_zero]; exact hw
  · rw [← hw, orderOf_eq_orderOf_iff]
    intro m
    rw [inv_pow, inv_eq_one]

/-- Evaluate at the powers of `w`, then transform with `w⁻¹`: `n` times the coefficients. -/
theorem dft_inv {w : K} {n : Nat} (hn : 1 ≤ n) (hw : orderOf w = n) (F : K[X]) (hF : ∀ i, n ≤ i → F.coeff i = 0) :
    dft w⁻¹ n ((List.range n).map fun i => F.eval (w ^ i)) = (List.range n).map fun k => n * F.coeff k := by
  have hev : ∀ x, F.eval x = ∑ j ∈ Finset.range n, F.coeff j * x ^ j := by
    intro x
    apply Polynomial.eval_eq_sum_range'
    by_contra h
    have h2 : F ≠ 0 := by rintro rfl; simp at h; omega
    exact h2 (Polynomial.leadingCoeff_eq_zero.1 (hF F.natDegree (by omega)))
  rw [dft]
  apply List.map_congr_left
  intro k hk
  rw [List.mem_range] at hk
  rw [eval_toPoly, ← orthogonal hn hw F.coeff k hk]
  simp only [List.length_map, List.length_range]
  apply Finset.sum_congr rfl
  intro i hi
  rw [Finset.mem_range] at hi
  rw [List.getD_eq_getElem?_getD, List.getElem?_map, List.getElem?_range hi]
  simp only [Option.map_some, Option.getD_some, hev]

theorem cast_ne_zero {w : K} {n : Nat} (hn : 1 ≤ n) (hw : orderOf w = n) : (n : K) ≠ 0 := by
  have : NeZero n := ⟨by omega⟩
  exact (primitive hw).neZero'.out

theorem invlen_eq (p : Nat) [hp : Fact p.Prime] [CharP K p] (n : Nat) (hn : (n : K) ≠ 0) :
    ((n ^ (p - 2) % p : Nat) : K) = (n : K)⁻¹ := by
  refine eq_inv_of_mul_eq_one_left ?_
  rw [← Nat.cast_mul]
  have h1 : ((n ^ (p - 2) % p * n : Nat) : ZMod p) = 1 := by
    push_cast
    rw [ZMod.natCast_mod, Nat.cast_pow, ← pow_succ]
    have hz : (n : ZMod p) ≠ 0 := by
      intro h
      rw [ZMod.natCast_eq_zero_iff] at h
      exact hn ((CharP.cast_eq_zero_iff K p n).2 h)
    have h2 := hp.out.two_le
    rw [show p - 2 + 1 = p - 1 by omega]
    exact ZMod.pow_card_sub_one_eq_one hz
  have h2 : ((n ^ (p - 2) % p * n : Nat) : ZMod p) = ((1 : Nat) : ZMod p) := by rw [h1]; simp
  rw [ZMod.natCast_eq_natCast_iff] at h2
  rw [(CharP.natCast_eq_natCast K p).2 h2, Nat.cast_one]

theorem toPoly_scale (c : K) : ∀ l : List K, toPoly (l.map fun x => x * c) = C c * toPoly l
  | [] => by simp [toPoly_nil]
  | a :: l => by rw [List.map_cons, toPoly_cons, toPoly_cons, toPoly_scale c l, Polynomial.C_mul]; ring

theorem toPoly_range (F : K[X]) (n : Nat) (hF : ∀ i, n ≤ i → F.coeff i = 0) :
    toPoly ((List.range n).map fun k => F.coeff k) = F := by
  ext i
  rw [coeff_toPoly]
  by_cases hi : i < n
  · simp [hi]
  · rw [List.getD_eq_getElem?_getD, List.getElem?_eq_none (by simp; omega), hF i (by omega)]; rfl

/-- Inverse transform, then transform: the values. -/
theorem dft_dft_inv {w : K} {n : Nat} (hn : 1 ≤ n) (hw : orderOf w = n) (v : List K) (hv : v.length = n) :
    dft w n ((dft w⁻¹ n v).map fun x => x * (n : K)⁻¹) = v := by
  have h := dft_inv (w := w⁻¹) hn (order_inv hw) (toPoly v) (fun i hi => coeff_eq_zero_of_length_le (by omega))
  rw [inv_inv] at h
  have h2 : dft w n (dft w⁻¹ n v) = (List.range n).map fun k => n * (toPoly v).coeff k := h
  apply List.ext_getElem (by simp [hv])
  intro i h3 h4
  have hi : i < n := by omega
  have h5 : (toPoly (dft w⁻¹ n v)).eval (w ^ i) = n * (toPoly v).coeff i := by
    have := congrArg (fun l : List K => l[i]?) h2
    simp only [dft_getElem? _ _ _ _ hi, List.getElem?_map, List.getElem?_range hi, Option.map_some, Option.some.injEq] at this
    exact this
  simp only [dft, List.getElem_map, List.getElem_range]
  change (toPoly ((dft w⁻¹ n v).map fun x => x * (n : K)⁻¹)).eval (w ^ i) = _
  rw [toPoly_scale, Polynomial.eval_mul, Polynomial.eval_C, h5, ← mul_assoc, inv_mul_cancel₀ (cast_ne_zero hn hw), one_mul, coeff_toPoly,
    List.getD_eq_getElem?_getD, List.getElem?_eq_getElem h4]
  rfl

/-- Transform, then inverse transform: the coefficients. -/
theorem dft_inv_dft {w : K} {n : Nat} (hn : 1 ≤ n) (hw : orderOf w = n) (f : List K) (hc : Canon f) (hf : f.length ≤ n) :
    ctor ((dft w⁻¹ n (dft w n f)).map fun x => x * (n : K)⁻¹) = f := by
  have hF : ∀ i, n ≤ i → (toPoly f).coeff i = 0 := fun i hi => coeff_eq_zero_of_length_le (by omega)
  have h := dft_inv hn hw (toPoly f) hF
  rw [show dft w n f = (List.range n).map fun i => (toPoly f).eval (w ^ i) from rfl, h]
  apply toPoly_inj (canon_ctor _) hc
  rw [toPoly_ctor, List.map_map]
  conv_rhs => rw [← toPoly_range (toPoly f) n hF]
  congr 1
  apply List.map_congr_left
  intro i _
  simp only [Function.comp]
  rw [mul_comm, ← mul_assoc, inv_mul_cancel₀ (cast_ne_zero hn hw), one_mul]

/-! ### fft_1d, mul_polys -/

theorem fft1d_fwd {n : Nat} (hg : Good n) (w : K) (hw : orderOf w = n) (p : Nat) (vals : List K) (hv : vals.length ≤ n) (fuel : Nat)
    (hf : n ≤ fuel) : fft1d fuel vals p w false = .ok (dft w n vals) := by
  simp only [fft1d, rootz_ok w n hg.pos hw fuel hf, bind, Except.bind, powers_dropLast, Bool.false_eq_true, if_false]
  rw [fft_ok hg w _ hw (pad_length w n vals hv), dft_congr w n (toPoly_pad _ _)]

theorem fft1d_inv {n : Nat} (hg : Good n) (w : K) (hw : orderOf w = n) (p : Nat) [hp : Fact p.Prime] [CharP K p] (vals : List K)
    (hv : vals.length ≤ n) (fuel : Nat) (hf : n ≤ fuel) :
    fft1d fuel vals p w true = .ok ((dft w⁻¹ n vals).map fun x => x * (n : K)⁻¹) := by
  simp only [fft1d, rootz_ok w n hg.pos hw fuel hf, bind, Except.bind, if_true]
  rw [powers_reverse w n (by rw [← hw, pow_orderOf_eq_one]), fft_ok hg w⁻¹ _ (order_inv hw) (pad_length w n vals hv),
    dft_congr w⁻¹ n (toPoly_pad _ _), pad_length w n vals hv, invlen_eq p n (cast_ne_zero hg.pos hw)]

theorem fft1d_bad {n : Nat} (hn : 1 ≤ n) (hg : ¬ Good n) (w : K) (hw : orderOf w = n) (p : Nat) (vals : List K)
    (hv : vals.length ≤ n) (inv : Bool) (fuel : Nat) (hf : n ≤ fuel) : fft1d fuel vals p w inv = .error .indexError := by
  have hl := pad_length w n vals hv
  cases inv
  · simp only [fft1d, rootz_ok w n hn hw fuel hf, bind, Except.bind, powers_dropLast, Bool.false_eq_true, if_false]
    exact fftRec_bad _ _ _ (by omega) (by simp [hl]) (by omega) (by rwa [hl])
  · simp only [fft1d, rootz_ok w n hn hw fuel hf, bind, Except.bind, if_true]
    rw [fft, fftRec_bad _ _ _ (by omega) (by simp [hl]) (by omega) (by rwa [hl])]

theorem mulPolys_ok {n : Nat} (hg : Good n) (w : K) (hw : orderOf w = n) (a b : List K) (ha : a.length ≤ n) (hb : b.length ≤ n)
    (hab : ∀ i, n ≤ i → (toPoly a * toPoly b).coeff i = 0) (fuel : Nat) (hf : n ≤ fuel) :
    mulPolys fuel a b w = .ok ((List.range n).map fun k => n * (toPoly a * toPoly b).coeff k) := by
  simp only [mulPolys, rootz_ok w n hg.pos hw fuel hf, bind, Except.bind, powers_dropLast,
    fft_ok hg w _ hw (pad_length w n a ha), fft_ok hg w _ hw (pad_length w n b hb)]
  rw [dft_congr w n (toPoly_pad _ a), dft_congr w n (toPoly_pad _ b), powers_reverse w n (by rw [← hw, pow_orderOf_eq_one]),
    fft_ok hg w⁻¹ _ (order_inv hw) (by simp), ← dft_inv hg.pos hw _ hab]
  congr 2
  rw [dft, dft, List.zip_map', List.map_map]
  apply List.map_congr_left
  intro i _
  simp

/-- Without a bound on the degrees: the product is reduced modulo `X^n - 1`. -/
theorem mulPolys_cyclic {n : Nat} (hg : Good n) (w : K) (hw : orderOf w = n) (a b : List K) (ha : a.length ≤ n) (hb : b.length ≤ n)
    (fuel : Nat) (hf : n ≤ fuel) :
    mulPolys fuel a b w =
      .ok ((List.range n).map fun k => n * ((toPoly a * toPoly b) %ₘ (Polynomial.X ^ n - 1)).coeff k) := by
  have hm : (Polynomial.X ^ n - 1 : K[X]).Monic := Polynomial.monic_X_pow_sub_C 1 (by have := hg.pos; omega)
  have hc : ∀ i, n ≤ i → ((toPoly a * toPoly b) %ₘ (Polynomial.X ^ n - 1)).coeff i = 0 := by
    intro i hi
    apply Polynomial.coeff_eq_zero_of_degree_lt
    refine lt_of_lt_of_le (Polynomial.degree_modByMonic_lt _ hm) ?_
    rw [show (1 : K[X]) = Polynomial.C 1 from rfl, Polynomial.degree_X_pow_sub_C (by have := hg.pos; omega)]
    exact_mod_cast hi
  simp only [mulPolys, rootz_ok w n hg.pos hw fuel hf, bind, Except.bind, powers_dropLast,
    fft_ok hg w _ hw (pad_length w n a ha), fft_ok hg w _ hw (pad_length w n b hb)]
  rw [dft_congr w n (toPoly_pad _ a), dft_congr w n (toPoly_pad _ b), powers_reverse w n (by rw [← hw, pow_orderOf_eq_one]),
    fft_ok hg w⁻¹ _ (order_inv hw) (by simp), ← dft_inv hg.pos hw _ hc]
  congr 2
  rw [dft, dft, List.zip_map', List.map_map]
  apply List.map_congr_left
  intro i _
  have h1 := congrArg (Polynomial.eval (w ^ i)) (Polynomial.modByMonic_add_div (toPoly a * toPoly b) (Polynomial.X ^ n - 1))
  have h2 : (w ^ i) ^ n = 1 := by rw [← pow_mul, mul_comm, pow_mul, ← hw, pow_orderOf_eq_one, one_pow]
  simp only [Polynomial.eval_add, Polynomial.eval_mul, Polynomial.eval_sub, Polynomial.eval_pow, Polynomial.eval_X, Polynomial.eval_one,
    h2, sub_self, zero_mul, add_zero] at h1
  simp [h1]

theorem butterfly_length (roots : List K) (h : Nat) : ∀ (l : List (K × K)) (i : Nat) (o r : List K),
    butterfly roots h l i o = .ok r → r.length = o.length
  | [], _, o, r, e => by simp only [butterfly, Except.ok.injEq] at e; rw [e]
  | (x, y) :: rest, i, o, r, e => by
    simp only [butterfly, bind, Except.bind] at e
    cases h1 : pyIdx roots i with
    | error _ => rw [h1] at e; simp at e
    | ok w =>
      rw [h1] at e
      simp only [pySet] at e
      by_cases h2 : i < o.length
      · simp only [if_pos h2] at e
        by_cases h3 : i + h < (o.set i (x + y * w)).length
        · simp only [if_pos h3] at e
          rw [butterfly_length roots h rest _ _ _ e]; simp
        · simp only [if_neg h3, reduceCtorEq] at e
      · simp [if_neg h2] at e

theorem fftRec_length (fuel : Nat) (vals roots r : List K) (hv : 4 < vals.length) (h : fftRec fuel vals roots = .ok r) :
    r.length = vals.length := by
  cases fuel with
  | zero => simp [fftRec] at h
  | succ fuel =>
    rw [fftRec, if_neg (by omega)] at h
    simp only [bind, Except.bind] at h
    cases h1 : fftRec fuel (evens vals) (evens roots) with
    | error _ => rw [h1] at h; simp at h
    | ok L =>
      rw [h1] at h
      simp only at h
      cases h2 : fftRec fuel (odds vals) (evens roots) with
      | error _ => rw [h2] at h; simp at h
      | ok R =>
        rw [h2] at h
        have := butterfly_length _ _ _ _ _ _ h
        simpa using this

theorem nbFft_long {n : Nat} (hn : 1 ≤ n) (w : K) (hw : orderOf w = n) (p fuel : Nat) (hf : n ≤ fuel) (f r : List K) (h4 : 4 < f.length)
    (hl : n ≤ f.length) (h : nbFft fuel p w f = .ok r) : r.length = f.length := by
  simp only [nbFft, fft1d, rootz_ok w n hn hw fuel hf, bind, Except.bind, powers_dropLast, Bool.false_eq_true, if_false, fft, pad] at h
  rw [if_neg (by simp [powers]; omega)] at h
  exact fftRec_length _ _ _ _ h4 h

theorem simpleRow_take (vals roots : List K) (i m : Nat) : ∀ (n j : Nat) (last : K), j + n ≤ m →
    simpleRow (vals.take m) roots i n j last = simpleRow vals roots i n j last
  | 0, _, _, _ => rfl
  | n + 1, j, last, h => by
    have : pyIdx (vals.take m) j = pyIdx vals j := by
      simp only [pyIdx, List.getElem?_take, if_pos (show j < m by omega)]
    simp only [simpleRow, this, simpleRow_take vals roots i m n _ _ (show j + 1 + n ≤ m by omega)]

theorem nbFft_short {n : Nat} (hg : Good n) (w : K) (hw : orderOf w = n) (p fuel : Nat) (hf : n ≤ fuel) (f : List K) (h4 : f.length ≤ 4)
    (hl : n ≤ f.length) : nbFft fuel p w f = .ok (dft w n (f.take n)) := by
  have e := fft_ok hg w (f.take n) hw (by simp [hl])
  simp only [nbFft, fft1d, rootz_ok w n hg.pos hw fuel hf, bind, Except.bind, powers_dropLast, Bool.false_eq_true, if_false, pad]
  rw [if_neg (by simp [powers]; omega), ← e, fft, fft, fftRec, fftRec, if_pos h4, if_pos (by simp; omega)]
  unfold simpleFt
  congr 1
  funext i
  rw [simpleRow_take]
  simp [powers]

end Verif.FFT
