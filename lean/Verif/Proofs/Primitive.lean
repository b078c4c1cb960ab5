import Verif.Proofs.FiniteField
import Verif.Spec.FiniteField
/-! # Primitivity and random generation -/

set_option linter.unusedSectionVars false

namespace Verif.FF
open Poly Spec
open scoped Polynomial
open Polynomial (C X)

variable {K : Type _} [Field K] [DecidableEq K]

theorem pow_X_spec (n : Nat) : ∃ y, pyPow one mul (ctor [0, 1] : List K) (n : Int) = .ok y ∧ Canon y ∧ toPoly y = X ^ n := by
  obtain ⟨y, h1, h2, h3⟩ := pyPow_interp (one := (one : List K)) (mul := mul) (φ := toPoly) (P := Canon) canon_one toPoly_one
    (fun a b _ _ => ⟨canon_mul a b, toPoly_mul a b⟩) (x := ctor [0, 1]) ctor_X.1 n
  exact ⟨y, h1, h2, by rw [h3, ctor_X.2]⟩

theorem mod_eq_one_iff {F P : K[X]} (hF : 1 ≤ F.natDegree) : P % F = 1 ↔ AdjoinRoot.mk F P = 1 := by
  have hF0 : F ≠ 0 := by rintro rfl; simp at hF
  have h1 : (1 : K[X]).degree < F.degree := by
    rw [Polynomial.degree_one, Polynomial.degree_eq_natDegree hF0]; exact_mod_cast hF
  have e : AdjoinRoot.mk F P = AdjoinRoot.mk F (P % F) := by
    rw [AdjoinRoot.mk_eq_mk]
    exact ⟨P / F, by have := EuclideanDomain.div_add_mod P F; linear_combination -this⟩
  constructor
  · intro h; rw [e, h, map_one]
  · intro h
    rw [e, ← map_one (AdjoinRoot.mk F), AdjoinRoot.mk_eq_mk] at h
    have hd : (P % F - 1).degree < F.degree :=
      lt_of_le_of_lt (Polynomial.degree_sub_le _ _) (max_lt (Polynomial.degree_mod_lt P hF0) h1)
    exact sub_eq_zero.1 (Polynomial.eq_zero_of_dvd_of_degree_lt h hd)

theorem primLoop_spec {f : List K} (hf : Canon f) (hd : 1 ≤ (toPoly f).natDegree) (N : Nat) : ∀ qs : List Nat,
    ∃ b, primLoop f N qs = .ok b ∧ (b = true ↔ ∀ q ∈ qs, AdjoinRoot.root (toPoly f) ^ (N / q) ≠ 1)
  | [] => ⟨true, rfl, by simp⟩
  | q :: qs => by
    have hne : f ≠ [] := by rintro rfl; simp [toPoly_nil] at hd
    obtain ⟨y, y1, y2, y3⟩ := pow_X_spec (K := K) (N / q)
    obtain ⟨r, r1, r2, r3, -⟩ := mod_eq y2 hf hne
    obtain ⟨b, b1, b2⟩ := primLoop_spec hf hd N qs
    have hr : eq r (ctor [1]) = true ↔ AdjoinRoot.root (toPoly f) ^ (N / q) = 1 := by
      rw [eq_iff]
      have : r = ctor [1] ↔ toPoly r = 1 :=
        ⟨fun h => by rw [h]; exact toPoly_one, fun h => toPoly_inj r2 (canon_ctor _) (by rw [h]; exact toPoly_one.symm)⟩
      rw [this, r3, y3, mod_eq_one_iff hd, map_pow, AdjoinRoot.mk_X]
    by_cases h : eq r (ctor [1]) = true
    · refine ⟨false, ?_, ?_⟩
      · simp only [primLoop, y1, r1, bind, Except.bind, h, if_true]
      · simp only [Bool.false_eq_true, false_iff]
        intro hall
        exact hall q (by simp) (hr.1 h)
    · refine ⟨b, ?_, ?_⟩
      · simp only [primLoop, y1, r1, bind, Except.bind, h]; exact b1
      · rw [b2]; simp only [List.mem_cons, forall_eq_or_imp]
        exact ⟨fun hall => ⟨fun h' => h (hr.2 h'), hall⟩, fun hall => hall.2⟩

theorem root_ne_zero_iff {F : K[X]} (hF : Irreducible F) : AdjoinRoot.root F ≠ 0 ↔ ¬ Associated F X := by
  rw [not_iff_not, ← AdjoinRoot.mk_X, AdjoinRoot.mk_eq_zero]
  exact ⟨fun h => hF.associated_of_dvd Polynomial.irreducible_X h, fun h => h.dvd⟩

theorem rootGenerates_iff [Finite K] {F : K[X]} (hF : Irreducible F) (hx : ¬ Associated F X) :
    RootGenerates F ↔ ∀ q : Nat, q.Prime → q ∣ Nat.card K ^ F.natDegree - 1 →
      AdjoinRoot.root F ^ ((Nat.card K ^ F.natDegree - 1) / q) ≠ 1 := by
  have : Fact (Irreducible F) := ⟨hF⟩
  have hr : AdjoinRoot.root F ≠ 0 := (root_ne_zero_iff hF).2 hx
  have hcard := Fq.card_adjoinRoot (K := K) hF.ne_zero
  have : Finite (AdjoinRoot F) := Nat.finite_of_card_ne_zero (by rw [hcard]; exact pow_ne_zero _ Nat.card_pos.ne')
  have hu : Nat.card (AdjoinRoot F)ˣ = Nat.card K ^ F.natDegree - 1 := by rw [Nat.card_units, hcard]
  set N := Nat.card K ^ F.natDegree - 1 with hN
  set u := Units.mk0 _ hr with hudef
  have hpow : ∀ k : Nat, AdjoinRoot.root F ^ k = 1 ↔ u ^ k = 1 := by
    intro k
    rw [← Units.val_inj]; simp [hudef]
  have hNpos : 0 < N := by rw [← hu]; exact Nat.card_pos
  have horder : RootGenerates F ↔ orderOf u = N := by
    rw [← hu]
    constructor
    · rintro ⟨w, hw, hall⟩
      have : w = u := Units.ext hw
      subst this
      apply orderOf_eq_card_of_forall_mem_zpowers
      intro v
      obtain ⟨k, hk⟩ := hall v
      exact ⟨k, hk.symm⟩
    · intro h
      refine ⟨u, rfl, fun v => ?_⟩
      have : Subgroup.zpowers u = ⊤ := by
        apply Subgroup.eq_top_of_card_eq
        rw [Nat.card_zpowers, h]
      obtain ⟨k, hk⟩ := (this ▸ Subgroup.mem_top v : v ∈ Subgroup.zpowers u)
      exact ⟨k, hk.symm⟩
  rw [horder]
  constructor
  · intro h q hq hqN hpw
    rw [hpow] at hpw
    have := orderOf_dvd_of_pow_eq_one hpw
    rw [h] at this
    have hlt := Nat.div_lt_self hNpos hq.one_lt
    have hpos : 0 < N / q := Nat.div_pos (Nat.le_of_dvd hNpos hqN) hq.pos
    have := Nat.le_of_dvd hpos this
    omega
  · intro h
    apply orderOf_eq_of_pow_and_pow_div_prime hNpos
    · rw [← hu]; exact pow_card_eq_one'
    · intro q hq hqN hpw
      exact h q hq hqN ((hpow _).2 hpw)

/-- `is_primitive` in terms of the powers of the root. -/
theorem isPrimitive_spec [Finite K] {factorint : Nat → List Nat} (hfac : IsFactorint factorint) {f : List K}
    (hf : Canon f) (hd : 1 ≤ (toPoly f).natDegree) :
    ∃ b, isPrimitive factorint (Nat.card K) (toPoly f).natDegree f = .ok b ∧
      (b = true ↔ Irreducible (toPoly f) ∧ ∀ q : Nat, q.Prime → q ∣ Nat.card K ^ (toPoly f).natDegree - 1 →
        AdjoinRoot.root (toPoly f) ^ ((Nat.card K ^ (toPoly f).natDegree - 1) / q) ≠ 1) := by
  obtain ⟨b, h1, h2⟩ := isIrreducible_spec hf hd
  set N := Nat.card K ^ (toPoly f).natDegree - 1 with hN
  have hNpos : 0 < N := by
    have h1 : 1 < Nat.card K := Finite.one_lt_card
    have := Nat.one_lt_pow (by omega : (toPoly f).natDegree ≠ 0) h1
    omega
  obtain ⟨c, c1, c2⟩ := primLoop_spec hf hd N (factorint N)
  cases b with
  | false =>
    refine ⟨false, by simp [isPrimitive, h1, bind, Except.bind], ?_⟩
    simp only [Bool.false_eq_true, false_iff] at h2 ⊢
    exact fun h => h2 h.1
  | true =>
    refine ⟨c, by simp only [isPrimitive, h1, bind, Except.bind, if_true]; exact c1, ?_⟩
    rw [c2]
    simp only [true_iff] at h2
    constructor
    · intro h
      exact ⟨h2, fun q hq hqN => h q ((hfac N q hNpos).2 ⟨hq, hqN⟩)⟩
    · rintro ⟨-, h⟩ q hq
      have := (hfac N q hNpos).1 hq
      exact h q this.1 this.2

/-! ### Random generation -/

theorem monic_draw (l : List K) : Canon (ctor (l ++ [1])) ∧ (toPoly (ctor (l ++ [1]))).Monic ∧
    (toPoly (ctor (l ++ [1]))).natDegree = l.length := by
  have hc : Canon (l ++ [1]) := fun a h => by simp at h; simp [← h]
  rw [ctor_of_canon hc]
  have hd := natDegree_toPoly hc
  refine ⟨hc, ?_, by simpa using hd⟩
  unfold Polynomial.Monic Polynomial.leadingCoeff
  rw [hd, coeff_toPoly]; simp

theorem genIrr_sound (p : Nat) (draws : Nat → List K) : ∀ (fuel i : Nat) (g : List K) (j : Nat),
    genIrr p draws fuel i = .ok (g, j) → ∃ k, g = ctor (draws k ++ [1]) ∧ isIrreducible p g = .ok true
  | 0, i, g, j, h => by simp [genIrr] at h
  | fuel + 1, i, g, j, h => by
    simp only [genIrr, bind, Except.bind] at h
    split at h
    · cases h
    · rename_i b hb
      split at h
      · rename_i hbt
        injection h with h
        injection h with h1 h2
        subst h1
        subst hbt
        exact ⟨i, rfl, hb⟩
      · exact genIrr_sound p draws fuel (i + 1) g j h

theorem genIrr_complete (p : Nat) (draws : Nat → List K) (n : Nat) : ∀ (d i fuel : Nat), i + d = n → d < fuel →
    (∀ k, i ≤ k → k < n → isIrreducible p (ctor (draws k ++ [1])) = .ok false) →
    isIrreducible p (ctor (draws n ++ [1])) = .ok true →
    genIrr p draws fuel i = .ok (ctor (draws n ++ [1]), n + 1)
  | d, i, 0, _, h, _, _ => by omega
  | 0, i, fuel + 1, h, _, _, hn => by
    have : i = n := by omega
    subst this
    simp [genIrr, hn, bind, Except.bind]
  | d + 1, i, fuel + 1, h, hf, hfalse, hn => by
    have := hfalse i le_rfl (by omega)
    simp only [genIrr, this, bind, Except.bind, Bool.false_eq_true, if_false]
    exact genIrr_complete p draws n d (i + 1) fuel (by omega) (by omega) (fun k h1 h2 => hfalse k (by omega) h2) hn

theorem genIrr_none (p : Nat) (draws : Nat → List K) (h : ∀ k, isIrreducible p (ctor (draws k ++ [1])) = .ok false) :
    ∀ fuel i, genIrr p draws fuel i = .error .diverge
  | 0, _ => rfl
  | fuel + 1, i => by
    simp only [genIrr, h i, bind, Except.bind, Bool.false_eq_true, if_false]
    exact genIrr_none p draws h fuel (i + 1)

theorem genPrim_sound (factorint : Nat → List Nat) (p m : Nat) (draws : Nat → List K) (inner : Nat) : ∀ (fuel i : Nat) (g : List K),
    genPrim factorint p m draws inner fuel i = .ok g →
      ∃ k, g = ctor (draws k ++ [1]) ∧ isPrimitive factorint p m g = .ok true
  | 0, i, g, h => by simp [genPrim] at h
  | fuel + 1, i, g, h => by
    simp only [genPrim, bind, Except.bind] at h
    split at h
    · cases h
    · rename_i r hr
      split at h
      · cases h
      · rename_i b hb
        split at h
        · rename_i hbt
          injection h with h
          subst h
          subst hbt
          obtain ⟨k, hk, -⟩ := genIrr_sound p draws inner i r.1 r.2 hr
          exact ⟨k, hk, hb⟩
        · exact genPrim_sound factorint p m draws inner fuel r.2 g h

end Verif.FF
