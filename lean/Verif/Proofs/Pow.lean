import Verif.Model.Numbertype
import Mathlib.Algebra.Group.Basic
import Mathlib.Data.Nat.Bitwise
import Mathlib.Tactic.Ring
/-! # Square-and-multiply -/

namespace Verif

variable {α : Type _} {M : Type _} [CommMonoid M]

/-- `mul` returns a value whose interpretation is the product, and which satisfies `Red`. -/
def MulLaw (mul : α → α → Py α) (φ : α → M) (P Red : α → Prop) : Prop :=
  ∀ a b, P a → P b → ∃ c, mul a b = .ok c ∧ P c ∧ Red c ∧ φ c = φ a * φ b

theorem land_two_pow_eq (n k : Nat) : (n &&& 2 ^ k = 2 ^ k) ↔ n.testBit k = true := by
  rw [Nat.and_two_pow]
  cases n.testBit k <;> simp [(Nat.two_pow_pos k).ne]

theorem mod_two_pow_succ' (n k : Nat) : n % 2 ^ (k + 1) = n % 2 ^ k + 2 ^ k * (n.testBit k).toNat := by
  rw [pow_succ, Nat.mod_mul, Nat.testBit_eq_decide_div_mod_eq]
  rcases Nat.mod_two_eq_zero_or_one (n / 2 ^ k) with h | h <;> simp [h]

theorem powLoop_spec {mul : α → α → Py α} {φ : α → M} {P Red : α → Prop} (h : MulLaw mul φ P Red) (x : M) (n : Nat) :
    ∀ (fuel k : Nat) (Q R : α), P Q → P R → φ Q = x ^ 2 ^ k → φ R = x ^ (n % 2 ^ (k + 1)) →
      1 ≤ fuel → n + 1 < fuel + 2 ^ (k + 1) → (Red R ∨ 2 ^ (k + 1) ≤ n ∨ n < 2) →
      ∃ S, powLoop mul n fuel (2 ^ (k + 1)) Q R = .ok S ∧ P S ∧ φ S = x ^ n ∧ (2 ≤ n → Red S)
  | 0, _, _, _, _, _, _, _, h1, _, _ => by omega
  | fuel + 1, k, Q, R, hQ, hR, eQ, eR, _, hf, hred => by
    unfold powLoop
    by_cases hi : ((2 ^ (k + 1) : Nat) : Int) ≤ (n : Int)
    · have hi' : 2 ^ (k + 1) ≤ n := by exact_mod_cast hi
      have hpos : 1 ≤ 2 ^ (k + 1) := Nat.one_le_two_pow
      have h2 : 2 ^ (k + 1 + 1) = 2 * 2 ^ (k + 1) := by ring
      obtain ⟨Q', hQ', pQ', -, eQ'⟩ := h Q Q hQ hQ
      have eQ'' : φ Q' = x ^ 2 ^ (k + 1) := by rw [eQ', eQ, ← pow_add]; congr 1; ring
      have hshift : (2 ^ (k + 1)) <<< 1 = 2 ^ (k + 1 + 1) := by rw [Nat.shiftLeft_eq]; ring
      rw [if_pos hi, hshift]
      simp only [hQ', bind, Except.bind, Int.toNat_natCast]
      by_cases hb : n &&& 2 ^ (k + 1) = 2 ^ (k + 1)
      · obtain ⟨R', hR', pR', rR', eR'⟩ := h Q' R pQ' hR
        rw [if_pos hb, hR']
        apply powLoop_spec h x n fuel (k + 1) Q' R' pQ' pR' eQ'' _ (by omega) (by omega) (Or.inl rR')
        rw [eR', eQ'', eR, ← pow_add]
        congr 1
        rw [mod_two_pow_succ' n (k + 1), (land_two_pow_eq n (k + 1)).mp hb]
        simp; ring
      · rw [if_neg hb]
        apply powLoop_spec h x n fuel (k + 1) Q' R pQ' hR eQ'' _ (by omega) (by omega) (Or.inr (Or.inl _))
        · rw [eR]
          congr 1
          rw [mod_two_pow_succ' n (k + 1)]
          have : n.testBit (k + 1) = false := by
            rw [land_two_pow_eq] at hb; simpa using hb
          simp [this]
        · by_contra hlt
          apply hb
          rw [land_two_pow_eq, Nat.testBit_eq_decide_div_mod_eq]
          have : n / 2 ^ (k + 1) = 1 := by
            apply Nat.div_eq_of_lt_le <;> omega
          simp [this]
    · have hi' : ¬ 2 ^ (k + 1) ≤ n := fun h' => hi (by exact_mod_cast h')
      refine ⟨R, by rw [if_neg hi], hR, by rw [eR, Nat.mod_eq_of_lt (by omega)], fun h2 => ?_⟩
      rcases hred with h' | h' | h'
      · exact h'
      · exact absurd h' hi'
      · omega

theorem powGen_spec {mul : α → α → Py α} {φ : α → M} {P Red : α → Prop} (h : MulLaw mul φ P Red)
    {one x : α} (h1 : P one) (e1 : φ one = 1) (hx : P x) (n : Nat) :
    ∃ S, powGen one mul x n = .ok S ∧ P S ∧ φ S = φ x ^ n ∧ (2 ≤ n → Red S) := by
  unfold powGen
  apply powLoop_spec h (φ x) n (n + 1) 0 x _ hx _ (by simp) _ (by omega) (by simp) (by simp; omega)
  · split <;> assumption
  · have hm : ((n : Int).fmod 2 = 1) ↔ n % 2 = 1 := by
      rw [Int.fmod_eq_emod_of_nonneg _ (by norm_num)]; omega
    by_cases hn : n % 2 = 1
    · rw [if_pos (hm.mpr hn)]; simp [hn]
    · rw [if_neg (fun h => hn (hm.mp h)), e1]
      have : n % 2 = 0 := by omega
      simp [this]

/-- Pure multiplication in a commutative monoid. -/
theorem pyPow_spec [DecidableEq M] (x : M) (n : Nat) : pyPow 1 (· * ·) x (n : Int) = .ok (x ^ n) := by
  obtain ⟨S, h1, -, h2, -⟩ := powGen_spec (mul := fun a b : M => .ok (a * b)) (φ := fun a => a) (P := fun _ => True)
    (Red := fun _ => True) (fun a b _ _ => ⟨_, rfl, trivial, trivial, rfl⟩) (one := 1) (x := x) trivial rfl trivial n
  rw [pyPow, h1, h2]

/-- The interpreted version: `one`, `mul` on well-formed representations. -/
theorem pyPow_interp {one : α} {mul : α → α → α} {φ : α → M} {P : α → Prop} (h1 : P one) (e1 : φ one = 1)
    (hm : ∀ a b, P a → P b → P (mul a b) ∧ φ (mul a b) = φ a * φ b) {x : α} (hx : P x) (n : Nat) :
    ∃ y, pyPow one mul x (n : Int) = .ok y ∧ P y ∧ φ y = φ x ^ n := by
  obtain ⟨S, h1, h2, h3, -⟩ := powGen_spec (mul := fun a b => .ok (mul a b)) (φ := φ) (P := P)
    (Red := fun _ => True) (fun a b ha hb => ⟨_, rfl, (hm a b ha hb).1, trivial, (hm a b ha hb).2⟩) h1 e1 hx n
  exact ⟨S, h1, h2, h3⟩

/-- Negative exponents: the loop body never runs. -/
theorem powGen_neg {mul : α → α → Py α} (one x : α) (n : Int) (hn : n < 0) :
    powGen one mul x n = .ok (if n % 2 = 1 then x else one) := by
  unfold powGen powLoop
  rw [if_neg (by push_cast; omega), Int.fmod_eq_emod_of_nonneg _ (by norm_num)]

end Verif
