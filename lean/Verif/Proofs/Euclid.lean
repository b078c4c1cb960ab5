import Verif.Model.Euclidean
import Mathlib.Algebra.Ring.Basic
import Mathlib.Algebra.Ring.Divisibility.Basic
import Mathlib.Data.Int.Basic
import Mathlib.Tactic.Ring
import Mathlib.Tactic.LinearCombination
/-!
# The Euclidean algorithm, generically

`φ` interprets the operands in a commutative ring `A`; `P` is the set of well-formed operands.
-/

namespace Verif

/-- What the operations must satisfy. -/
structure EuclidLaw {α : Type _} (E : EuclidOps α) {A : Type _} [CommRing A] (φ : α → A) (P : α → Prop) : Prop where
  zero_mem : P E.zero
  one_mem : P E.one
  zero_val : φ E.zero = 0
  one_val : φ E.one = 1
  sub_mem : ∀ a b, P a → P b → P (E.sub a b)
  mul_mem : ∀ a b, P a → P b → P (E.mul a b)
  sub_val : ∀ a b, P a → P b → φ (E.sub a b) = φ a - φ b
  mul_val : ∀ a b, P a → P b → φ (E.mul a b) = φ a * φ b
  abs_zero : ∀ a, P a → E.abs a = 0 → φ a = 0
  divmod : ∀ a b, P a → P b → 0 < E.abs b →
    ∃ q r, E.divmod a b = .ok (q, r) ∧ P q ∧ P r ∧ φ a = φ b * φ q + φ r ∧ E.abs r < E.abs b

variable {α : Type _} {E : EuclidOps α} {A : Type _} [CommRing A] {φ : α → A} {P : α → Prop}

theorem gcdLoop_spec (h : EuclidLaw E φ P) : ∀ (fuel : Nat) (a b : α), P a → P b → E.abs b < fuel →
    ∃ g, gcdLoop E fuel a b = .ok g ∧ P g ∧ ∀ d, d ∣ φ g ↔ d ∣ φ a ∧ d ∣ φ b
  | 0, _, _, _, _, hf => by omega
  | fuel + 1, a, b, ha, hb, hf => by
    unfold gcdLoop
    by_cases hpos : E.abs b > 0
    · obtain ⟨q, r, hqr, hq, hr, hval, hlt⟩ := h.divmod a b ha hb hpos
      obtain ⟨g, hg, hPg, hd⟩ := gcdLoop_spec h fuel b r hb hr (by omega)
      refine ⟨g, ?_, hPg, ?_⟩
      · simp only [hpos, if_true, hqr]; exact hg
      · intro d
        rw [hd d]
        constructor
        · rintro ⟨h1, h2⟩
          exact ⟨hval ▸ dvd_add (h1.mul_right _) h2, h1⟩
        · rintro ⟨h1, h2⟩
          refine ⟨h2, ?_⟩
          have : φ r = φ a - φ b * φ q := by rw [hval]; ring
          rw [this]; exact dvd_sub h1 (h2.mul_right _)
    · have h0 : φ b = 0 := h.abs_zero b hb (by omega)
      exact ⟨a, by simp [hpos], ha, fun d => by simp [h0]⟩

theorem gcd_spec (h : EuclidLaw E φ P) (a b : α) (ha : P a) (hb : P b) :
    ∃ g, gcd E a b = .ok g ∧ P g ∧ ∀ d, d ∣ φ g ↔ d ∣ φ a ∧ d ∣ φ b := by
  unfold gcd
  split
  · obtain ⟨g, h1, h2, h3⟩ := gcdLoop_spec h (E.abs a + 1) b a hb ha (by omega)
    exact ⟨g, h1, h2, fun d => by rw [h3, and_comm]⟩
  · exact gcdLoop_spec h _ a b ha hb (by omega)

theorem xgcdLoop_spec (h : EuclidLaw E φ P) (A0 B0 : A) :
    ∀ (fuel : Nat) (a b x2 x1 y2 y1 : α), P a → P b → P x2 → P x1 → P y2 → P y1 →
    A0 * φ x2 + B0 * φ y2 = φ a → A0 * φ x1 + B0 * φ y1 = φ b → E.abs b < fuel →
    ∃ x y g, xgcdLoop E fuel a b x2 x1 y2 y1 = .ok (x, y, g) ∧ P x ∧ P y ∧ P g ∧
      A0 * φ x + B0 * φ y = φ g ∧ ∀ d, d ∣ φ g ↔ d ∣ φ a ∧ d ∣ φ b
  | 0, _, _, _, _, _, _, _, _, _, _, _, _, _, _, hf => by omega
  | fuel + 1, a, b, x2, x1, y2, y1, ha, hb, hx2, hx1, hy2, hy1, e1, e2, hf => by
    unfold xgcdLoop
    by_cases hpos : E.abs b > 0
    · obtain ⟨q, r, hqr, hq, hr, hval, hlt⟩ := h.divmod a b ha hb hpos
      have hm1 := h.mul_mem q x1 hq hx1
      have hm2 := h.mul_mem q y1 hq hy1
      obtain ⟨x, y, g, hg, hx, hy, hPg, hbez, hd⟩ :=
        xgcdLoop_spec h A0 B0 fuel b r x1 (E.sub x2 (E.mul q x1)) y1 (E.sub y2 (E.mul q y1)) hb hr hx1
          (h.sub_mem _ _ hx2 hm1) hy1 (h.sub_mem _ _ hy2 hm2) e2
          (by
            rw [h.sub_val _ _ hx2 hm1, h.sub_val _ _ hy2 hm2, h.mul_val _ _ hq hx1, h.mul_val _ _ hq hy1]
            linear_combination e1 - φ q * e2 + hval) (by omega)
      refine ⟨x, y, g, ?_, hx, hy, hPg, hbez, ?_⟩
      · simp only [hpos, if_true, hqr]; exact hg
      · intro d
        rw [hd d]
        constructor
        · rintro ⟨h1, h2⟩
          exact ⟨hval ▸ dvd_add (h1.mul_right _) h2, h1⟩
        · rintro ⟨h1, h2⟩
          refine ⟨h2, ?_⟩
          have : φ r = φ a - φ b * φ q := by rw [hval]; ring
          rw [this]; exact dvd_sub h1 (h2.mul_right _)
    · have h0 : φ b = 0 := h.abs_zero b hb (by omega)
      exact ⟨x2, y2, a, by simp [hpos], hx2, hy2, ha, e1, fun d => by simp [h0]⟩

theorem xgcdOrdered_spec (h : EuclidLaw E φ P) (a b : α) (ha : P a) (hb : P b) :
    ∃ x y g, xgcdOrdered E a b = .ok (x, y, g) ∧ P x ∧ P y ∧ P g ∧
      φ a * φ x + φ b * φ y = φ g ∧ ∀ d, d ∣ φ g ↔ d ∣ φ a ∧ d ∣ φ b := by
  unfold xgcdOrdered
  split
  · next h0 =>
    refine ⟨E.one, E.zero, a, rfl, h.one_mem, h.zero_mem, ha, by simp [h.one_val, h.zero_val], ?_⟩
    intro d; simp [h.abs_zero b hb h0]
  · exact xgcdLoop_spec h (φ a) (φ b) _ a b _ _ _ _ ha hb h.one_mem h.zero_mem h.zero_mem h.one_mem
      (by simp [h.one_val, h.zero_val]) (by simp [h.one_val, h.zero_val]) (by omega)

theorem xgcd_spec (h : EuclidLaw E φ P) (a b : α) (ha : P a) (hb : P b) :
    ∃ x y g, xgcd E a b = .ok (x, y, g) ∧ P x ∧ P y ∧ P g ∧
      φ a * φ x + φ b * φ y = φ g ∧ ∀ d, d ∣ φ g ↔ d ∣ φ a ∧ d ∣ φ b := by
  unfold xgcd
  split
  · obtain ⟨x, y, g, h1, hx, hy, hg, h2, h3⟩ := xgcdOrdered_spec h b a hb ha
    refine ⟨y, x, g, by simp [h1, bind, Except.bind], hy, hx, hg, by rw [add_comm]; exact h2, fun d => by rw [h3, and_comm]⟩
  · exact xgcdOrdered_spec h a b ha hb

theorem fmod_natAbs_lt (a b : Int) (hb : b ≠ 0) : (a.fmod b).natAbs < b.natAbs := by
  rcases lt_or_gt_of_ne hb with h | h
  · have h1 := Int.fmod_lt_of_pos (-a) (b := -b) (by omega)
    have h2 := Int.fmod_nonneg_of_pos (-a) (b := -b) (by omega)
    rw [Int.neg_fmod_neg] at h1 h2
    omega
  · have h1 := Int.fmod_lt_of_pos a h
    have h2 := Int.fmod_nonneg_of_pos a h
    omega

theorem xgcdLoop_int_nonneg : ∀ (fuel : Nat) (a b x2 x1 y2 y1 x y g : Int), 0 ≤ a → 0 ≤ b →
    xgcdLoop intOps fuel a b x2 x1 y2 y1 = .ok (x, y, g) → 0 ≤ g
  | 0, _, _, _, _, _, _, _, _, _, _, _, h => by simp [xgcdLoop] at h
  | fuel + 1, a, b, x2, x1, y2, y1, x, y, g, ha, hb, h => by
    unfold xgcdLoop at h
    by_cases hpos : intOps.abs b > 0
    · have hb0 : b ≠ 0 := fun h0 => by simp [intOps, h0] at hpos
      rw [if_pos hpos] at h
      simp only [intOps, pyDivmod, hb0, if_false, bind, Except.bind] at h
      exact xgcdLoop_int_nonneg fuel b _ _ _ _ _ x y g hb (Int.fmod_nonneg_of_pos a (by omega)) h
    · rw [if_neg hpos] at h
      simp only [Except.ok.injEq, Prod.mk.injEq] at h
      omega

theorem xgcd_int_nonneg (a b x y g : Int) (ha : 0 ≤ a) (hb : 0 ≤ b)
    (h : xgcd intOps a b = .ok (x, y, g)) : 0 ≤ g := by
  have key : ∀ a b x y g : Int, 0 ≤ a → 0 ≤ b → xgcdOrdered intOps a b = .ok (x, y, g) → 0 ≤ g := by
    intro a b x y g ha hb h
    unfold xgcdOrdered at h
    split at h
    · simp only [Except.ok.injEq, Prod.mk.injEq] at h; omega
    · exact xgcdLoop_int_nonneg _ _ _ _ _ _ _ _ _ _ ha hb h
  unfold xgcd at h
  split at h
  · cases hh : xgcdOrdered intOps b a with
    | error e => simp [hh, bind, Except.bind] at h
    | ok r =>
      obtain ⟨r1, r2, r3⟩ := r
      simp only [hh, bind, Except.bind, Except.ok.injEq, Prod.mk.injEq] at h
      have := key b a _ _ _ hb ha hh
      omega
  · exact key a b _ _ _ ha hb h

theorem intLaw : EuclidLaw intOps (fun n : Int => n) (fun _ => True) where
  zero_mem := trivial
  one_mem := trivial
  zero_val := rfl
  one_val := rfl
  sub_mem := fun _ _ _ _ => trivial
  mul_mem := fun _ _ _ _ => trivial
  sub_val := fun _ _ _ _ => rfl
  mul_val := fun _ _ _ _ => rfl
  abs_zero := fun a _ h => Int.natAbs_eq_zero.mp h
  divmod := fun a b _ _ h => by
    have hb : b ≠ 0 := fun h0 => by simp [intOps, h0] at h
    refine ⟨a.fdiv b, a.fmod b, by simp [intOps, pyDivmod, hb], trivial, trivial, ?_, fmod_natAbs_lt a b hb⟩
    exact (Int.mul_fdiv_add_fmod a b).symm

end Verif
