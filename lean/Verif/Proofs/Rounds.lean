import Verif.Model.Modp
import Verif.Model.Primality
import Verif.Model.SmoothFri
import Verif.Proofs.FFT
import Verif.Proofs.Polynomial
import Verif.Proofs.FiniteField
import Mathlib.Tactic.Ring
/-!
# How many rounds the loops take and how deep the recursions go
-/

namespace Verif.Rounds
open Poly FFT

/-! ### Euclid's algorithm on integers -/

/-- The sequence of remainders from `a, b` reaches 0 within `n` divisions. -/
def Ends : Nat → Int → Int → Prop
  | 0, _, b => b = 0
  | n + 1, a, b => b = 0 ∨ Ends n b (a.fmod b)

theorem Ends.mono {n m : Nat} (h : n ≤ m) : ∀ {a b : Int}, Ends n a b → Ends m a b := by
  induction n generalizing m with
  | zero =>
    intro a b hb
    cases m with
    | zero => exact hb
    | succ m => exact .inl hb
  | succ n ih =>
    intro a b hb
    obtain ⟨m, rfl⟩ : ∃ m', m = m' + 1 := ⟨m - 1, by omega⟩
    exact hb.imp id (ih (by omega))

theorem fmod_abs {a b : Int} (hb : b ≠ 0) : (a.fmod b).natAbs < b.natAbs ∧ (0 < b → 0 ≤ a.fmod b) ∧ (b < 0 → a.fmod b ≤ 0) := by
  rcases lt_or_gt_of_ne hb with h | h
  · have h1 : (-a).fmod (-b) = -(a.fmod b) := Int.neg_fmod_neg ..
    have h2 := Int.fmod_nonneg_of_pos (-a) (by omega : 0 < -b)
    have h3 := Int.fmod_lt_of_pos (-a) (by omega : 0 < -b)
    omega
  · have h2 := Int.fmod_nonneg_of_pos a h
    have h3 := Int.fmod_lt_of_pos a h
    omega

theorem fmod_step {b r : Int} {k : Nat} (hr : r.natAbs < b.natAbs) (hk : 2 ^ k ≤ r.natAbs) (hb : b.natAbs < 2 ^ (k + 1))
    (h1 : 0 < b → 0 ≤ r) (h2 : b < 0 → r ≤ 0) : (b.fmod r).natAbs < 2 ^ k := by
  have hpow : (2 : Nat) ^ (k + 1) = 2 * 2 ^ k := by rw [pow_succ]; ring
  have hpos : 0 < 2 ^ k := Nat.two_pow_pos k
  generalize hp : (2 : Nat) ^ k = P at *
  have key : ∀ x y : Int, 0 < y → y < x → P ≤ y.natAbs → x.natAbs < 2 * P → (x.fmod y).natAbs < P := by
    intro x y hy hxy hP hx
    have e : x.fmod y = x - y := by
      have h1 : x.fmod y = (x - y).fmod y := by
        conv_lhs => rw [show x = x - y + y by ring]
        rw [Int.add_fmod_right]
      rw [h1, Int.fmod_eq_of_lt (by omega) (by omega)]
    rw [e]; omega
  rcases lt_trichotomy b 0 with h | h | h
  · have h3 : (-b).fmod (-r) = -(b.fmod r) := Int.neg_fmod_neg ..
    have := key (-b) (-r) (by have := h2 h; omega) (by have := h2 h; omega) (by omega) (by omega)
    omega
  · omega
  · exact key b r (by have := h1 h; omega) (by have := h1 h; omega) hk (by omega)

theorem ends_log (k : Nat) : ∀ a b : Int, b.natAbs < 2 ^ k → Ends (2 * k) a b := by
  induction k with
  | zero => intro a b h; exact (by omega : b = 0)
  | succ k ih =>
    intro a b h
    by_cases hb : b = 0
    · exact .inl hb
    · right
      obtain ⟨h1, h2, h3⟩ := fmod_abs (a := a) hb
      show Ends (2 * k + 1) b (a.fmod b)
      by_cases hr : (a.fmod b).natAbs < 2 ^ k
      · exact (ih _ _ hr).mono (by omega)
      · right
        exact ih _ _ (fmod_step h1 (by omega) h h2 h3)

theorem gcdLoop_ends {n : Nat} : ∀ {a b : Int}, Ends n a b → ∃ r, ∀ fuel, n < fuel → gcdLoop intOps fuel a b = .ok r := by
  induction n with
  | zero =>
    intro a b h
    refine ⟨a, fun fuel hf => ?_⟩
    obtain ⟨f, rfl⟩ : ∃ f, fuel = f + 1 := ⟨fuel - 1, by omega⟩
    have hb : b = 0 := h
    simp [gcdLoop, intOps, hb]
  | succ n ih =>
    intro a b h
    by_cases hb : b = 0
    · refine ⟨a, fun fuel hf => ?_⟩
      obtain ⟨f, rfl⟩ : ∃ f, fuel = f + 1 := ⟨fuel - 1, by omega⟩
      simp [gcdLoop, intOps, hb]
    · obtain ⟨r, hr⟩ := ih (h.resolve_left hb)
      refine ⟨r, fun fuel hf => ?_⟩
      obtain ⟨f, rfl⟩ : ∃ f, fuel = f + 1 := ⟨fuel - 1, by omega⟩
      rw [gcdLoop, if_pos (show intOps.abs b > 0 by simp [intOps]; omega)]
      simp only [intOps, pyDivmod, if_neg hb, bind, Except.bind]
      exact hr f (by omega)

theorem xgcdLoop_ends {n : Nat} : ∀ {a b : Int} (x2 x1 y2 y1 : Int), Ends n a b →
    ∃ r, ∀ fuel, n < fuel → xgcdLoop intOps fuel a b x2 x1 y2 y1 = .ok r := by
  induction n with
  | zero =>
    intro a b x2 x1 y2 y1 h
    refine ⟨(x2, y2, a), fun fuel hf => ?_⟩
    obtain ⟨f, rfl⟩ : ∃ f, fuel = f + 1 := ⟨fuel - 1, by omega⟩
    have hb : b = 0 := h
    simp [xgcdLoop, intOps, hb]
  | succ n ih =>
    intro a b x2 x1 y2 y1 h
    by_cases hb : b = 0
    · refine ⟨(x2, y2, a), fun fuel hf => ?_⟩
      obtain ⟨f, rfl⟩ : ∃ f, fuel = f + 1 := ⟨fuel - 1, by omega⟩
      simp [xgcdLoop, intOps, hb]
    · obtain ⟨r, hr⟩ := ih x1 (x2 - a.fdiv b * x1) y1 (y2 - a.fdiv b * y1) (h.resolve_left hb)
      refine ⟨r, fun fuel hf => ?_⟩
      obtain ⟨f, rfl⟩ : ∃ f, fuel = f + 1 := ⟨fuel - 1, by omega⟩
      rw [xgcdLoop, if_pos (show intOps.abs b > 0 by simp [intOps]; omega)]
      simp only [intOps, pyDivmod, if_neg hb, bind, Except.bind]
      exact hr f (by omega)

/-- The remainders reach 0: a crude bound, the one the fuel of the model is sized by. -/
theorem ends_crude : ∀ x y : Int, Ends y.natAbs x y := by
  intro x y
  induction hn : y.natAbs using Nat.strong_induction_on generalizing x y with
  | _ n ih =>
    subst hn
    by_cases hy : y = 0
    · subst hy; exact (rfl : (0 : Int) = 0)
    · obtain ⟨m, hm⟩ : ∃ m, y.natAbs = m + 1 := ⟨y.natAbs - 1, by omega⟩
      have h1 := (fmod_abs (a := x) hy).1
      rw [hm]
      exact .inr ((ih _ h1 y (x.fmod y) rfl).mono (by omega))

theorem agree {α : Type _} {g : Nat → Py α} {r : α} {n m : Nat} (h1 : ∀ fuel, n < fuel → g fuel = .ok r)
    (h2 : ∃ r', ∀ fuel, m < fuel → g fuel = .ok r') : ∀ fuel, m < fuel → g fuel = .ok r := by
  obtain ⟨r', h2⟩ := h2
  intro fuel hf
  have e := h1 (n + m + 1) (by omega)
  rw [h2 (n + m + 1) (by omega)] at e
  rw [h2 fuel hf, e]

theorem gcd_rounds (a b : Int) (k : Nat) (hk : min a.natAbs b.natAbs < 2 ^ k) :
    ∃ r, gcd intOps a b = .ok r ∧ ∀ fuel, 2 * k < fuel →
      gcdLoop intOps fuel (if a.natAbs < b.natAbs then b else a) (if a.natAbs < b.natAbs then a else b) = .ok r := by
  unfold gcd
  show ∃ r, (if a.natAbs < b.natAbs then gcdLoop intOps (a.natAbs + 1) b a else gcdLoop intOps (b.natAbs + 1) a b) = .ok r ∧ _
  by_cases h : a.natAbs < b.natAbs
  · simp only [if_pos h]
    obtain ⟨r, hr⟩ := gcdLoop_ends (ends_crude b a)
    exact ⟨r, hr _ (by omega), agree hr (gcdLoop_ends (ends_log k b a (by omega)))⟩
  · simp only [if_neg h]
    obtain ⟨r, hr⟩ := gcdLoop_ends (ends_crude a b)
    exact ⟨r, hr _ (by omega), agree hr (gcdLoop_ends (ends_log k a b (by omega)))⟩

theorem xgcd_rounds (a b : Int) (k : Nat) (hk : b.natAbs < 2 ^ k) :
    ∃ r, xgcdOrdered intOps a b = .ok r ∧ ∀ fuel, 2 * k < fuel → xgcdLoop intOps fuel a b 1 0 0 1 = .ok r := by
  obtain ⟨r, hr⟩ := xgcdLoop_ends 1 0 0 1 (ends_crude a b)
  refine ⟨r, ?_, agree hr (xgcdLoop_ends 1 0 0 1 (ends_log k a b hk))⟩
  have h1 := hr (b.natAbs + 1) (by omega)
  unfold xgcdOrdered
  show (if b.natAbs = 0 then .ok (1, 0, a) else xgcdLoop intOps (b.natAbs + 1) a b 1 0 0 1) = _
  by_cases h : b.natAbs = 0
  · rw [if_pos h]
    rw [h] at h1
    rw [← h1, xgcdLoop, if_neg (show ¬ intOps.abs b > 0 by simp only [intOps]; omega)]
  · rw [if_neg h, h1]

/-! ### Exponentiation -/

theorem powLoop_rounds {α : Type _} (mul : α → α → α) (n : Int) : ∀ (k i : Nat) (Q R : α), 0 < i → n < (i : Int) * 2 ^ k →
    ∃ r, ∀ fuel, k < fuel → powLoop (fun a b => .ok (mul a b)) n fuel i Q R = .ok r := by
  intro k
  induction k with
  | zero =>
    intro i Q R hi hn
    refine ⟨R, fun fuel hf => ?_⟩
    obtain ⟨f, rfl⟩ : ∃ f, fuel = f + 1 := ⟨fuel - 1, by omega⟩
    rw [powLoop, if_neg (by simpa using hn)]
  | succ k ih =>
    intro i Q R hi hn
    by_cases h : (i : Int) ≤ n
    · have hs : i <<< 1 = 2 * i := by rw [Nat.shiftLeft_eq]; ring
      obtain ⟨r, hr⟩ := ih (i <<< 1) (mul Q Q) (if n.toNat &&& i = i then mul (mul Q Q) R else R) (by omega) (by
        rw [hs]; push_cast; rw [pow_succ] at hn; linarith)
      refine ⟨r, fun fuel hf => ?_⟩
      obtain ⟨f, rfl⟩ : ∃ f, fuel = f + 1 := ⟨fuel - 1, by omega⟩
      rw [powLoop, if_pos h]
      have := hr f (by omega)
      split_ifs at this with hc
      · simpa [hc, bind, Except.bind] using this
      · simpa [hc, bind, Except.bind] using this
    · refine ⟨R, fun fuel hf => ?_⟩
      obtain ⟨f, rfl⟩ : ∃ f, fuel = f + 1 := ⟨fuel - 1, by omega⟩
      rw [powLoop, if_neg h]

theorem pow_rounds {α : Type _} (one : α) (mul : α → α → α) (x : α) (n : Int) (k : Nat) (hk : n < 2 ^ (k + 1)) :
    ∃ r, pyPow one mul x n = .ok r ∧
      ∀ fuel, k < fuel → powLoop (fun a b => .ok (mul a b)) n fuel 2 x (if n.fmod 2 = 1 then x else one) = .ok r := by
  obtain ⟨r, hr⟩ := powLoop_rounds mul n n.toNat 2 x (if n.fmod 2 = 1 then x else one) (by omega) (by
    have : n.toNat < 2 ^ n.toNat := Nat.lt_two_pow_self
    have h2 : ((2 ^ n.toNat : Nat) : Int) = 2 ^ n.toNat := by push_cast; rfl
    push_cast
    generalize (2 : Int) ^ n.toNat = P at *
    omega)
  exact ⟨r, hr _ (by omega), agree hr (powLoop_rounds mul n k 2 x _ (by omega) (by rw [pow_succ] at hk; push_cast; linarith))⟩

/-! ### The test for powers of two -/

theorem isAPowerOf2_diverge (d : Nat) : ∀ x : Int, Utils.isAPowerOf2 d x = .error .diverge ↔ (2 : Int) ^ d ∣ x := by
  induction d with
  | zero => intro x; simp [Utils.isAPowerOf2]
  | succ d ih =>
    intro x
    rw [Utils.isAPowerOf2]
    by_cases h1 : x = 1
    · rw [if_pos h1, h1]
      refine iff_of_false (by simp) fun h => ?_
      have h2 : (2 : Int) ∣ 1 := (dvd_pow_self 2 (by omega)).trans h
      omega
    · rw [if_neg h1]
      have hf : x.fmod 2 = x % 2 := Int.fmod_eq_emod_of_nonneg x (by omega)
      have hd : x.fdiv 2 = x / 2 := Int.fdiv_eq_ediv_of_nonneg x (by omega)
      rw [hf, hd]
      by_cases h2 : x % 2 ≠ 0
      · rw [if_pos h2]
        refine iff_of_false (by simp) fun h => ?_
        have h3 : (2 : Int) ∣ x := (dvd_pow_self 2 (by omega)).trans h
        omega
      · rw [if_neg h2, ih]
        obtain ⟨y, rfl⟩ : ∃ y, x = 2 * y := ⟨x / 2, by omega⟩
        rw [Int.mul_ediv_cancel_left _ (by omega), pow_succ']
        exact (Int.mul_dvd_mul_iff_left (by omega)).symm

/-! ### The Fourier transform -/

variable {K : Type _} [Field K] [DecidableEq K]

omit [DecidableEq K] in
theorem simpleRow_fine (vals roots : List K) (i : Nat) : ∀ (n j : Nat) (l : K), simpleRow vals roots i n j l ≠ .error .diverge := by
  intro n
  induction n with
  | zero => intro j l h; cases h
  | succ n ih =>
    intro j l
    rw [simpleRow]
    unfold pyIdx
    cases vals[j]? with
    | none => intro h; cases h
    | some v =>
      cases hr : roots[i * j % roots.length]? with
      | none => intro h; simp [bind, Except.bind, hr] at h
      | some r => simpa [bind, Except.bind, hr] using ih (j + 1) (l + v * r)

theorem pyMap_fine {α β : Type _} (g : α → Py β) (h : ∀ a, g a ≠ .error .diverge) : ∀ l, PolyUtils.pyMap g l ≠ .error .diverge := by
  intro l
  induction l with
  | nil => intro h; cases h
  | cons a l ih =>
    rw [PolyUtils.pyMap]
    have ha := h a
    generalize g a = x at ha
    cases x with
    | error e => intro h'; exact ha (by cases h'; rfl)
    | ok b =>
      generalize PolyUtils.pyMap g l = y at ih
      cases y with
      | error e => intro h'; exact ih (by cases h'; rfl)
      | ok c => intro h'; cases h'

omit [DecidableEq K] in
theorem butterfly_fine (roots : List K) (h : Nat) : ∀ (l : List (K × K)) (i : Nat) (o : List K), butterfly roots h l i o ≠ .error .diverge := by
  intro l
  induction l with
  | nil => intro i o h; cases h
  | cons e l ih =>
    obtain ⟨x, y⟩ := e
    intro i o
    rw [butterfly]
    unfold pyIdx
    cases roots[i]? with
    | none => intro h; cases h
    | some r =>
      simp only [bind, Except.bind, pySet]
      by_cases h1 : i < o.length
      · rw [if_pos h1]
        by_cases h2 : i + h < o.length
        · simpa [h2] using ih (i + 1) _
        · simp [h2]
      · simp [h1]

omit [DecidableEq K] in
theorem fftRec_diverge (d : Nat) : ∀ vals roots : List K, fftRec (d + 1) vals roots = .error .diverge ↔ 4 * 2 ^ d < vals.length := by
  induction d with
  | zero =>
    intro vals roots
    rw [fftRec]
    by_cases h : vals.length ≤ 4
    · rw [if_pos h]
      exact iff_of_false (pyMap_fine _ (fun i => simpleRow_fine _ _ _ _ _ _) _) (by omega)
    · rw [if_neg h]
      exact iff_of_true rfl (by omega)
  | succ d ih =>
    intro vals roots
    rw [fftRec]
    have hp : 4 * 2 ^ (d + 1) = 2 * (4 * 2 ^ d) := by rw [pow_succ]; ring
    have h1 : 1 ≤ 2 ^ d := Nat.one_le_two_pow
    rw [hp]
    by_cases h : vals.length ≤ 4
    · rw [if_pos h]
      refine iff_of_false (pyMap_fine _ (fun i => simpleRow_fine _ _ _ _ _ _) _) ?_
      omega
    · rw [if_neg h]
      have hE := ih (evens vals) (evens roots)
      have hO := ih (odds vals) (evens roots)
      rw [evens_length] at hE
      rw [odds_length] at hO
      by_cases hL : fftRec (d + 1) (evens vals) (evens roots) = .error .diverge
      · rw [hL]
        refine iff_of_true rfl ?_
        have h' := hE.1 hL
        omega
      · have hn := mt hE.2 hL
        have hR : fftRec (d + 1) (odds vals) (evens roots) ≠ .error .diverge := mt hO.1 (by omega)
        refine iff_of_false ?_ (by omega)
        generalize fftRec (d + 1) (evens vals) (evens roots) = L at hL
        cases L with
        | error e => intro h'; exact hL (by cases h'; rfl)
        | ok L =>
          generalize fftRec (d + 1) (odds vals) (evens roots) = R at hR
          cases R with
          | error e => intro h'; exact hR (by cases h'; rfl)
          | ok R => exact butterfly_fine _ _ _ _ _

omit [DecidableEq K] in
theorem fftRec_stable (d : Nat) : ∀ vals roots : List K, vals.length ≤ 4 * 2 ^ d → ∀ fuel, d < fuel → fftRec fuel vals roots = fftRec (d + 1) vals roots := by
  induction d with
  | zero =>
    intro vals roots h fuel hf
    obtain ⟨f, rfl⟩ : ∃ f, fuel = f + 1 := ⟨fuel - 1, by omega⟩
    rw [fftRec, fftRec, if_pos (by omega), if_pos (by omega)]
  | succ d ih =>
    intro vals roots h fuel hf
    obtain ⟨f, rfl⟩ : ∃ f, fuel = f + 1 := ⟨fuel - 1, by omega⟩
    have hp : 4 * 2 ^ (d + 1) = 2 * (4 * 2 ^ d) := by rw [pow_succ]; ring
    rw [fftRec, fftRec]
    rw [ih (evens vals) (evens roots) (by rw [evens_length]; omega) f (by omega), ih (odds vals) (evens roots) (by rw [odds_length]; omega) f (by omega)]

theorem decomposeLoop_diverge (d : Nat) : ∀ (e : Nat) (x : Int), Primality.decomposeLoop d e x = .error .diverge ↔ (2 : Int) ^ d ∣ x := by
  induction d with
  | zero => intro e x; simp [Primality.decomposeLoop]
  | succ d ih =>
    intro e x
    rw [Primality.decomposeLoop]
    by_cases h2 : x % 2 = 0
    · rw [if_pos h2, ih]
      obtain ⟨y, rfl⟩ : ∃ y, x = 2 * y := ⟨x / 2, by omega⟩
      rw [Int.mul_ediv_cancel_left _ (by omega), pow_succ']
      exact (Int.mul_dvd_mul_iff_left (by omega)).symm
    · rw [if_neg h2]
      refine iff_of_false (by simp) fun h => ?_
      have h3 : (2 : Int) ∣ x := (dvd_pow_self 2 (by omega)).trans h
      omega

/-- What is known of `__pow__` in an extension field: it makes at most `2 k + 1` nested calls for an exponent below `2^(k+1)`. -/
theorem fqPow_stable (f a : List K) (k : Nat) : ∀ n : Int, 0 ≤ n → n < 2 ^ (k + 1) → ∀ fuel, 2 * k < fuel →
    FF.fqPow f a fuel n = FF.fqPow f a (2 * k + 1) n := by
  induction k with
  | zero =>
    intro n h0 h fuel hf
    obtain ⟨g, rfl⟩ : ∃ g, fuel = g + 1 := ⟨fuel - 1, by omega⟩
    have : n = 0 ∨ n = 1 := by omega
    rcases this with rfl | rfl <;> simp [FF.fqPow]
  | succ k ih =>
    have even : ∀ n : Int, 0 ≤ n → n < 2 ^ (k + 1 + 1) → n.fmod 2 = 0 → ∀ fuel, 2 * k + 1 < fuel →
        FF.fqPow f a fuel n = FF.fqPow f a (2 * k + 2) n := by
      intro n h0 h h2 fuel hf
      obtain ⟨g, rfl⟩ : ∃ g, fuel = g + 1 := ⟨fuel - 1, by omega⟩
      have hd : n.fdiv 2 = n / 2 := Int.fdiv_eq_ediv_of_nonneg n (by omega)
      rw [FF.fqPow, FF.fqPow]
      by_cases hz : n = 0
      · simp [hz]
      by_cases ho : n = 1
      · simp [ho]
      rw [if_neg hz, if_neg hz, if_neg ho, if_neg ho, if_pos h2, if_pos h2, hd,
        ih (n / 2) (by omega) (by rw [pow_succ] at h; omega) g (by omega)]
    intro n h0 h fuel hf
    obtain ⟨g, rfl⟩ : ∃ g, fuel = g + 1 := ⟨fuel - 1, by omega⟩
    have hm : n.fmod 2 = n % 2 := Int.fmod_eq_emod_of_nonneg n (by omega)
    by_cases h2 : n.fmod 2 = 0
    · rw [even n h0 h h2 _ (by omega), even n h0 h h2 (2 * (k + 1) + 1) (by omega)]
    · show _ = FF.fqPow f a (2 * k + 2 + 1) n
      rw [FF.fqPow, FF.fqPow]
      by_cases hz : n = 0
      · simp [hz]
      by_cases ho : n = 1
      · simp [ho]
      have hm1 : (n - 1).fmod 2 = 0 := by
        rw [Int.fmod_eq_emod_of_nonneg _ (by omega)]; omega
      rw [if_neg hz, if_neg hz, if_neg ho, if_neg ho, if_neg h2, if_neg h2,
        even (n - 1) (by omega) (by omega) hm1 g (by omega)]

theorem proveRec_stable {p : Nat} [Fact p.Prime] (fuel : Nat) (blake : Bytes → Bytes) (k : Nat) : ∀ (f : List (Zp p)) (w : Zp p) (d e factor : Nat),
    d < 17 * 4 ^ k → ∀ depth, k < depth → SmoothFri.proveRec fuel blake depth f w d e factor = SmoothFri.proveRec fuel blake (k + 1) f w d e factor := by
  induction k with
  | zero =>
    intro f w d e factor h depth hd
    obtain ⟨g, rfl⟩ : ∃ g, depth = g + 1 := ⟨depth - 1, by omega⟩
    rw [SmoothFri.proveRec, SmoothFri.proveRec]
    simp only [if_pos (show d ≤ 16 by omega)]
  | succ k ih =>
    intro f w d e factor h depth hd
    obtain ⟨g, rfl⟩ : ∃ g, depth = g + 1 := ⟨depth - 1, by omega⟩
    rw [SmoothFri.proveRec, SmoothFri.proveRec]
    have h4 : d / 4 < 17 * 4 ^ k := by rw [pow_succ] at h; omega
    simp only [ih _ _ (d / 4) e 40 h4 g (by omega)]

end Verif.Rounds
