import Verif.Model.Polynomial
import Verif.Model.Numbertype
import Verif.Spec.Polynomial
import Verif.Proofs.Euclid
import Mathlib.Algebra.Polynomial.Div
import Mathlib.Algebra.Polynomial.FieldDivision
import Mathlib.Algebra.Polynomial.AlgebraMap
import Mathlib.Tactic.LinearCombination
/-!
# `polynomial.py`: refinement to Mathlib polynomials
-/

set_option linter.unusedSectionVars false

namespace Verif.Poly
open Polynomial

variable {R : Type _}

/-! ### `strip` -/

theorem stripLen_le [DecidableEq R] (L : List R) (elt : R) : ∀ n, stripLen L elt n ≤ n
  | 0 => le_rfl
  | n + 1 => by
    unfold stripLen; split
    · exact (stripLen_le L elt n).trans (Nat.le_succ n)
    · exact le_rfl

theorem stripLen_tail [DecidableEq R] (L : List R) (elt : R) :
    ∀ n i, stripLen L elt n ≤ i → i < n → L[i]? = some elt
  | 0, i, _, h => by omega
  | n + 1, i, h1, h2 => by
    unfold stripLen at h1
    split at h1
    · next h =>
      rcases Nat.lt_or_ge i n with h3 | h3
      · exact stripLen_tail L elt n i h1 h3
      · have : i = n := by omega
        rw [this]; exact h
    · omega

theorem stripLen_last [DecidableEq R] (L : List R) (elt : R) :
    ∀ n k, stripLen L elt n = k + 1 → L[k]? ≠ some elt
  | 0, k, h => by simp [stripLen] at h
  | n + 1, k, h => by
    unfold stripLen at h
    split at h
    · exact stripLen_last L elt n k h
    · next h' => have : n = k := by omega
                 rw [← this]; exact h'

section semiring
variable [Semiring R]

theorem coeff_toPoly (L : List R) (i : Nat) : (toPoly L).coeff i = L.getD i 0 := by
  unfold toPoly
  simp only [finsetSum_coeff, coeff_C_mul, coeff_X_pow, mul_ite, mul_one, mul_zero, Finset.sum_ite_eq, Finset.mem_range]
  split
  · rfl
  · next h => simp [List.getD, List.getElem?_eq_none (by omega : L.length ≤ i)]

theorem toPoly_nil : toPoly ([] : List R) = 0 := by simp [toPoly]

theorem toPoly_cons (a : R) (L : List R) : toPoly (a :: L) = C a + X * toPoly L := by
  ext i
  cases i with
  | zero => simp [coeff_toPoly]
  | succ i => simp [coeff_toPoly]

theorem toPoly_append (L M : List R) : toPoly (L ++ M) = toPoly L + X ^ L.length * toPoly M := by
  induction L with
  | nil => simp [toPoly_nil]
  | cons a L ih => simp [toPoly_cons, ih, pow_succ', mul_add, add_assoc, mul_assoc]

theorem toPoly_replicate_zero (n : Nat) : toPoly (List.replicate n (0 : R)) = 0 := by
  ext i; simp only [coeff_toPoly, coeff_zero, List.getD, List.getElem?_replicate]
  split <;> simp

theorem Canon.nil : Canon ([] : List R) := by intro a h; simp at h

theorem length_le_of_canon {L : List R} (h : Canon L) (n : Nat) (hc : ∀ i, n ≤ i → (toPoly L).coeff i = 0) :
    L.length ≤ n := by
  by_contra hn
  rcases List.eq_nil_or_concat L with rfl | ⟨M, a, rfl⟩
  · simp at hn
  · have h1 := h a (by simp)
    have := hc M.length (by simp at hn; omega)
    rw [coeff_toPoly] at this
    simp at this
    exact h1 this

theorem coeff_eq_zero_of_length_le {L : List R} {i : Nat} (h : L.length ≤ i) : (toPoly L).coeff i = 0 := by
  rw [coeff_toPoly]; simp [List.getD, List.getElem?_eq_none h]

theorem toPoly_inj {L M : List R} (hL : Canon L) (hM : Canon M) (h : toPoly L = toPoly M) : L = M := by
  have hlen : L.length = M.length := by
    apply le_antisymm
    · exact length_le_of_canon hL _ fun i hi => by rw [h]; exact coeff_eq_zero_of_length_le hi
    · exact length_le_of_canon hM _ fun i hi => by rw [← h]; exact coeff_eq_zero_of_length_le hi
  apply List.ext_getElem hlen
  intro i h1 h2
  have := congrArg (fun p => coeff p i) h
  simpa [coeff_toPoly, List.getD, h1, h2] using this

theorem toPoly_eq_zero {L : List R} (hL : Canon L) : toPoly L = 0 ↔ L = [] :=
  ⟨fun h => toPoly_inj hL Canon.nil (h.trans toPoly_nil.symm), fun h => by rw [h, toPoly_nil]⟩

/-- The length of a canonical list is one more than the degree. -/
theorem degree_toPoly_lt_iff {L : List R} (hL : Canon L) (n : Nat) : (toPoly L).degree < n ↔ L.length ≤ n := by
  rw [degree_lt_iff_coeff_zero]
  exact ⟨fun h => length_le_of_canon hL n fun i hi => h i hi, fun h i hi => coeff_eq_zero_of_length_le (h.trans hi)⟩

theorem natDegree_toPoly {L : List R} (hL : Canon L) : (toPoly L).natDegree = L.length - 1 := by
  by_cases h0 : L = []
  · subst h0; simp [toPoly_nil]
  · have hne : toPoly L ≠ 0 := fun h => h0 ((toPoly_eq_zero hL).mp h)
    have hpos : 0 < L.length := List.length_pos_iff.mpr h0
    have h1 := (degree_toPoly_lt_iff hL L.length).mpr le_rfl
    rw [degree_eq_natDegree hne] at h1
    have h2 : ¬ (toPoly L).degree < (L.length - 1 : Nat) := by
      rw [degree_toPoly_lt_iff hL]; omega
    rw [degree_eq_natDegree hne] at h2
    have h1' : (toPoly L).natDegree < L.length := by exact_mod_cast h1
    have h2' : ¬ (toPoly L).natDegree < L.length - 1 := by exact_mod_cast h2
    omega

end semiring

section ring
variable [CommRing R] [DecidableEq R]

theorem toPoly_ctor (L : List R) : toPoly (ctor L) = toPoly L := by
  ext i
  rw [coeff_toPoly, coeff_toPoly, ctor, strip]
  simp only [List.getD, List.getElem?_take]
  split
  · rfl
  · next h =>
    rcases Nat.lt_or_ge i L.length with h1 | h1
    · rw [stripLen_tail L 0 L.length i (by omega) h1]; rfl
    · rw [List.getElem?_eq_none h1]

theorem canon_ctor (L : List R) : Canon (ctor L) := by
  intro a ha hz
  subst hz
  unfold ctor strip at ha
  have hle := stripLen_le L 0 L.length
  rw [List.getLast?_eq_getElem?, List.length_take, Nat.min_eq_left hle, List.getElem?_take] at ha
  cases hk : stripLen L 0 L.length with
  | zero => simp [hk] at ha
  | succ k =>
    have := stripLen_last L 0 L.length k hk
    rw [hk] at ha
    simp at ha
    exact this ha

theorem ctor_of_canon {L : List R} (h : Canon L) : ctor L = L := toPoly_inj (canon_ctor L) h (toPoly_ctor L)

theorem toPoly_map_neg (f : List R) : toPoly (f.map (fun a => -a)) = -toPoly f := by
  induction f with
  | nil => simp [toPoly_nil]
  | cons a f ih => rw [List.map_cons, toPoly_cons, toPoly_cons, ih, C_neg]; ring

theorem toPoly_neg (f : List R) : toPoly (neg f) = -toPoly f := by
  rw [neg, toPoly_ctor, toPoly_map_neg]

theorem toPoly_zipSum : ∀ f g : List R, toPoly (zipSum f g) = toPoly f + toPoly g
  | [], g => by simp [zipSum, toPoly_nil]
  | a :: f, [] => by rw [zipSum, toPoly_cons, toPoly_zipSum f _]; simp [toPoly_cons, toPoly_nil]
  | a :: f, b :: g => by
    rw [zipSum, toPoly_cons, toPoly_zipSum f _, toPoly_cons, toPoly_cons]; simp; ring

theorem toPoly_add (f g : List R) : toPoly (add f g) = toPoly f + toPoly g := by
  rw [add, toPoly_ctor, toPoly_zipSum]

theorem toPoly_sub (f g : List R) : toPoly (sub f g) = toPoly f - toPoly g := by
  rw [sub, toPoly_add, toPoly_neg, sub_eq_add_neg]

theorem toPoly_modify (c : R) : ∀ (acc : List R) (k : Nat), k < acc.length →
    toPoly (acc.modify k (fun x => x + c)) = toPoly acc + C c * X ^ k
  | [], k, h => by simp at h
  | a :: acc, 0, _ => by simp [toPoly_cons]; ring
  | a :: acc, k + 1, h => by
    rw [List.modify_succ_cons, toPoly_cons, toPoly_cons, toPoly_modify c acc k (by simpa using h)]; ring

theorem mulInner_length (i : Nat) (a : R) : ∀ (g : List R) (j : Nat) (acc : List R),
    (mulInner i a j g acc).length = acc.length
  | [], _, _ => rfl
  | b :: g, j, acc => by rw [mulInner, mulInner_length i a g]; simp

theorem toPoly_mulInner (i : Nat) (a : R) : ∀ (g : List R) (j : Nat) (acc : List R),
    i + j + g.length ≤ acc.length →
    toPoly (mulInner i a j g acc) = toPoly acc + C a * X ^ (i + j) * toPoly g
  | [], _, _, _ => by simp [mulInner, toPoly_nil]
  | b :: g, j, acc, h => by
    simp only [List.length_cons] at h
    rw [mulInner, toPoly_mulInner i a g (j + 1) _ (by simp; omega), toPoly_modify _ _ _ (by omega), toPoly_cons, C_mul]
    ring

theorem toPoly_mulOuter (g : List R) : ∀ (f : List R) (i : Nat) (acc : List R),
    (f ≠ [] → i + f.length + g.length ≤ acc.length + 1) →
    toPoly (mulOuter g i f acc) = toPoly acc + X ^ i * toPoly f * toPoly g
  | [], _, _, _ => by simp [mulOuter, toPoly_nil]
  | a :: f, i, acc, h => by
    have h' := h (by simp)
    simp only [List.length_cons] at h'
    rw [mulOuter, toPoly_mulOuter g f (i + 1), toPoly_mulInner, toPoly_cons]
    · ring
    · omega
    · intro _; rw [mulInner_length]; omega

theorem toPoly_mul (f g : List R) : toPoly (mul f g) = toPoly f * toPoly g := by
  unfold mul isZero
  split
  · next h =>
    rcases Bool.or_eq_true_iff.mp h with h | h <;> simp at h <;> simp [h, toPoly_nil]
  · next h =>
    simp only [Bool.or_eq_true, beq_iff_eq, not_or] at h
    have hf := List.length_pos_iff.mpr h.1
    have hg := List.length_pos_iff.mpr h.2
    rw [toPoly_ctor, toPoly_mulOuter _ _ _ _ (by intro _; simp [pabs]; omega), toPoly_replicate_zero]
    simp

theorem canon_neg (f : List R) : Canon (neg f) := canon_ctor _
theorem canon_add (f g : List R) : Canon (add f g) := canon_ctor _
theorem canon_sub (f g : List R) : Canon (sub f g) := canon_ctor _
theorem canon_mul (f g : List R) : Canon (mul f g) := by
  unfold mul; split
  · exact Canon.nil
  · exact canon_ctor _

theorem toPoly_one : toPoly (one : List R) = 1 := by simp [one, toPoly_ctor, toPoly_cons, toPoly_nil]
theorem canon_one : Canon (one : List R) := canon_ctor _

theorem eq_iff {f g : List R} : eq f g = true ↔ f = g := by
  unfold eq degree pabs
  rw [Bool.and_eq_true, beq_iff_eq]
  constructor
  · rintro ⟨h1, h2⟩
    have hl : f.length = g.length := by omega
    clear h1
    induction f generalizing g with
    | nil => simp at hl; exact (List.length_eq_zero_iff.mp hl.symm).symm
    | cons a f ih =>
      cases g with
      | nil => simp at hl
      | cons b g =>
        simp at h2 hl
        rw [h2.1, ih (by simpa using h2.2) hl]
  · rintro rfl
    refine ⟨rfl, ?_⟩
    induction f with
    | nil => rfl
    | cons a f ih => simpa using ih

theorem ne_eq_not_eq (f g : List R) : ne f g = !eq f g := by
  unfold ne eq
  simp [bne, List.any_eq_not_all_not]

theorem callLoop_spec {A : Type _} [CommRing A] [Algebra R A] (x : A) : ∀ (f : List R) (y pw : A),
    callLoop x f y pw = y + pw * aeval x (toPoly f)
  | [], y, pw => by simp [callLoop, toPoly_nil]
  | a :: f, y, pw => by
    rw [callLoop, callLoop_spec x f, toPoly_cons]
    simp only [map_add, map_mul, aeval_C, aeval_X]
    ring

theorem call_spec {A : Type _} [CommRing A] [Algebra R A] (f : List R) (x : A) :
    call f x = aeval x (toPoly f) := by simp [call, callLoop_spec]

end ring

/-! ### Division with remainder -/
section field
variable {K : Type _} [Field K] [DecidableEq K]

theorem leadingCoefficient_spec {f : List K} (hf : Canon f) (h0 : f ≠ []) :
    ∃ a, leadingCoefficient f = .ok a ∧ a ≠ 0 ∧ (toPoly f).coeff (f.length - 1) = a := by
  rcases List.eq_nil_or_concat f with rfl | ⟨M, a, rfl⟩
  · exact absurd rfl h0
  · refine ⟨a, by simp [leadingCoefficient], hf a (by simp), ?_⟩
    rw [coeff_toPoly]; simp

theorem divmodLoop_spec {g : List K} (hg : Canon g) (h0 : g ≠ []) {gLC : K} (hlc : gLC ≠ 0)
    (hcoef : (toPoly g).coeff (g.length - 1) = gLC) (F : K[X]) :
    ∀ (fuel : Nat) (q r : List K), Canon q → Canon r → r.length < fuel → F = toPoly q * toPoly g + toPoly r →
    ∃ q' r', divmodLoop g (degree g) gLC fuel q r = .ok (q', r') ∧ Canon q' ∧ Canon r' ∧
      F = toPoly q' * toPoly g + toPoly r' ∧ r'.length < g.length
  | 0, _, _, _, _, hf, _ => by omega
  | fuel + 1, q, r, hq, hr, hf, hF => by
    have hgpos : 0 < g.length := List.length_pos_iff.mpr h0
    unfold divmodLoop
    by_cases hdeg : degree r ≥ degree g
    · have hlen : g.length ≤ r.length := by unfold degree pabs at hdeg; omega
      have hr0 : r ≠ [] := List.length_pos_iff.mp (by omega)
      obtain ⟨a, ha, ha0, hac⟩ := leadingCoefficient_spec hr hr0
      set e : Nat := (degree r - degree g).toNat with he
      have he' : e = r.length - g.length := by rw [he]; unfold degree pabs; omega
      set mono := ctor (List.replicate e 0 ++ [a * gLC⁻¹]) with hmono
      have hm : toPoly mono = C (a * gLC⁻¹) * X ^ e := by
        rw [hmono, toPoly_ctor, toPoly_append, toPoly_replicate_zero, toPoly_cons, toPoly_nil]
        simp; ring
      have hs : toPoly (sub r (mul mono g)) = toPoly r - C (a * gLC⁻¹) * X ^ e * toPoly g := by
        rw [toPoly_sub, toPoly_mul, hm]
      have hlt : (sub r (mul mono g)).length ≤ r.length - 1 := by
        apply length_le_of_canon (canon_sub _ _)
        intro i hi
        rw [hs, coeff_sub, mul_assoc, coeff_C_mul, coeff_X_pow_mul']
        have hei : e ≤ i := by omega
        rw [if_pos hei]
        rcases Nat.eq_or_lt_of_le hi with h | h
        · have : i - e = g.length - 1 := by omega
          rw [this, hcoef, ← h, hac, mul_assoc, inv_mul_cancel₀ hlc]; ring
        · rw [coeff_eq_zero_of_length_le (by omega : r.length ≤ i),
            coeff_eq_zero_of_length_le (by omega : g.length ≤ i - e)]; ring
      obtain ⟨q', r', h1, h2, h3, h4, h5⟩ := divmodLoop_spec hg h0 hlc hcoef F fuel (add q mono) (sub r (mul mono g))
        (canon_add _ _) (canon_sub _ _) (by omega) (by rw [hs, toPoly_add, hm, hF]; ring)
      refine ⟨q', r', ?_, h2, h3, h4, h5⟩
      rw [if_pos hdeg]
      simp only [ha, pyDiv, hlc, if_false, bind, Except.bind]
      exact h1
    · refine ⟨q, r, by rw [if_neg hdeg], hq, hr, hF, ?_⟩
      unfold degree pabs at hdeg; omega

theorem divmod_spec {f g : List K} (hf : Canon f) (hg : Canon g) (h0 : g ≠ []) :
    ∃ q r, divmod f g = .ok (q, r) ∧ Canon q ∧ Canon r ∧
      toPoly f = toPoly q * toPoly g + toPoly r ∧ r.length < g.length := by
  obtain ⟨a, ha, ha0, hac⟩ := leadingCoefficient_spec hg h0
  obtain ⟨q, r, h1, h2⟩ := divmodLoop_spec hg h0 ha0 hac (toPoly f) (f.length + 1) [] f Canon.nil hf (by omega)
    (by simp [toPoly_nil])
  exact ⟨q, r, by simp only [divmod, ha, bind, Except.bind]; exact h1, h2⟩

theorem div_mod_unique {F G Q S : K[X]} (hG : G ≠ 0) (h : F = Q * G + S) (hd : S.degree < G.degree) :
    Q = F / G ∧ S = F % G := by
  have h1 : F = G * (F / G) + F % G := (EuclideanDomain.div_add_mod F G).symm
  have h2 : G * (Q - F / G) = F % G - S := by linear_combination h1 - h
  have h3 : (F % G - S).degree < G.degree := by
    apply (degree_sub_le _ _).trans_lt
    exact max_lt (EuclideanDomain.mod_lt F hG) hd
  have h4 : Q - F / G = 0 := by
    by_contra hne
    rw [← h2, degree_mul] at h3
    have : G.degree ≤ G.degree + (Q - F / G).degree := by
      have h5 : (0 : WithBot ℕ) ≤ (Q - F / G).degree := zero_le_degree_iff.mpr hne
      calc G.degree = G.degree + 0 := (add_zero _).symm
        _ ≤ _ := by gcongr
    exact absurd h3 (not_lt.mpr this)
  rw [h4, mul_zero] at h2
  exact ⟨sub_eq_zero.mp h4, (sub_eq_zero.mp h2.symm).symm⟩

theorem degree_lt_of_length_lt {f g : List K} (hf : Canon f) (hg : Canon g) (h : f.length < g.length) :
    (toPoly f).degree < (toPoly g).degree := by
  have h1 : (toPoly f).degree < (g.length - 1 : Nat) := (degree_toPoly_lt_iff hf _).mpr (by omega)
  have h2 : ¬ (toPoly g).degree < (g.length - 1 : Nat) := by rw [degree_toPoly_lt_iff hg]; omega
  exact h1.trans_le (not_lt.mp h2)

theorem divmod_eq {f g : List K} (hf : Canon f) (hg : Canon g) (h0 : g ≠ []) :
    ∃ q r, divmod f g = .ok (q, r) ∧ Canon q ∧ Canon r ∧
      toPoly q = toPoly f / toPoly g ∧ toPoly r = toPoly f % toPoly g ∧ r.length < g.length := by
  obtain ⟨q, r, h1, h2, h3, h4, h5⟩ := divmod_spec hf hg h0
  have := div_mod_unique (fun h => h0 ((toPoly_eq_zero hg).mp h)) h4 (degree_lt_of_length_lt h3 hg h5)
  exact ⟨q, r, h1, h2, h3, this.1, this.2, h5⟩

theorem mod_eq {f g : List K} (hf : Canon f) (hg : Canon g) (h0 : g ≠ []) :
    ∃ r, mod f g = .ok r ∧ Canon r ∧ toPoly r = toPoly f % toPoly g ∧ r.length < g.length := by
  obtain ⟨q, r, h1, -, h3, -, h5, h6⟩ := divmod_eq hf hg h0
  exact ⟨r, by simp [mod, isZero, h0, h1, bind, Except.bind], h3, h5, h6⟩

theorem truediv_eq {f g : List K} (hf : Canon f) (hg : Canon g) (h0 : g ≠ []) :
    ∃ q, truediv f g = .ok q ∧ Canon q ∧ toPoly q = toPoly f / toPoly g := by
  obtain ⟨q, r, h1, h2, -, h4, -⟩ := divmod_eq hf hg h0
  exact ⟨q, by simp [truediv, isZero, h0, h1, bind, Except.bind], h2, h4⟩

theorem polyLaw : EuclidLaw (ops (K := K)) toPoly Canon where
  zero_mem := Canon.nil
  one_mem := canon_one
  zero_val := toPoly_nil
  one_val := toPoly_one
  sub_mem := fun _ _ _ _ => canon_sub _ _
  mul_mem := fun _ _ _ _ => canon_mul _ _
  sub_val := fun _ _ _ _ => toPoly_sub _ _
  mul_val := fun _ _ _ _ => toPoly_mul _ _
  abs_zero := fun a _ h => by
    have : a = [] := List.length_eq_zero_iff.mp h
    rw [this, toPoly_nil]
  divmod := fun a b ha hb h => by
    obtain ⟨q, r, h1, h2, h3, h4, h5⟩ := divmod_spec ha hb (List.length_pos_iff.mp h)
    exact ⟨q, r, h1, h2, h3, by rw [h4]; ring, h5⟩

end field

/-! ### The bundled type of polynomials -/

/-- The values a `Polynomial` instance can have: canonical coefficient lists. -/
def CPoly (R : Type _) [Zero R] : Type _ := {L : List R // Canon L}

namespace CPoly
variable [CommRing R] [DecidableEq R]

instance : DecidableEq (CPoly R) := inferInstanceAs (DecidableEq {L : List R // Canon L})

noncomputable def val (f : CPoly R) : R[X] := toPoly f.1

theorem val_inj : Function.Injective (val (R := R)) := fun f g h => Subtype.ext (toPoly_inj f.2 g.2 h)

instance : Zero (CPoly R) := ⟨⟨[], Canon.nil⟩⟩
instance : One (CPoly R) := ⟨⟨one, canon_one⟩⟩
instance : Add (CPoly R) := ⟨fun f g => ⟨add f.1 g.1, canon_add _ _⟩⟩
instance : Sub (CPoly R) := ⟨fun f g => ⟨sub f.1 g.1, canon_sub _ _⟩⟩
instance : Mul (CPoly R) := ⟨fun f g => ⟨mul f.1 g.1, canon_mul _ _⟩⟩
instance : Neg (CPoly R) := ⟨fun f => ⟨neg f.1, canon_neg _⟩⟩

@[simp] theorem val_zero : (0 : CPoly R).val = 0 := toPoly_nil
@[simp] theorem val_one : (1 : CPoly R).val = 1 := toPoly_one
@[simp] theorem val_add (f g : CPoly R) : (f + g).val = f.val + g.val := toPoly_add _ _
@[simp] theorem val_sub (f g : CPoly R) : (f - g).val = f.val - g.val := toPoly_sub _ _
@[simp] theorem val_mul (f g : CPoly R) : (f * g).val = f.val * g.val := toPoly_mul _ _
@[simp] theorem val_neg (f : CPoly R) : (-f).val = -f.val := toPoly_neg _

instance : CommRing (CPoly R) where
  add_assoc a b c := val_inj (by simp [add_assoc])
  zero_add a := val_inj (by simp)
  add_zero a := val_inj (by simp)
  add_comm a b := val_inj (by simp [add_comm])
  left_distrib a b c := val_inj (by simp [mul_add])
  right_distrib a b c := val_inj (by simp [add_mul])
  zero_mul a := val_inj (by simp)
  mul_zero a := val_inj (by simp)
  mul_assoc a b c := val_inj (by simp [mul_assoc])
  one_mul a := val_inj (by simp)
  mul_one a := val_inj (by simp)
  neg_add_cancel a := val_inj (by simp)
  sub_eq_add_neg a b := val_inj (by simp [sub_eq_add_neg])
  mul_comm a b := val_inj (by simp [mul_comm])
  nsmul := nsmulRec
  zsmul := zsmulRec

/-- `Polynomial(L)` for a list of ring elements. -/
def mk (L : List R) : CPoly R := ⟨ctor L, canon_ctor L⟩

@[simp] theorem val_mk (L : List R) : (mk L).val = toPoly L := toPoly_ctor L

theorem val_surj : Function.Surjective (val (R := R)) := by
  intro p
  refine ⟨mk ((List.range (p.natDegree + 1)).map p.coeff), ?_⟩
  rw [val_mk]
  ext i
  rw [coeff_toPoly]
  simp only [List.getD, List.getElem?_map]
  rcases Nat.lt_or_ge i (p.natDegree + 1) with h | h
  · simp [List.getElem?_range h]
  · rw [List.getElem?_eq_none (by simpa using h)]
    simp [coeff_eq_zero_of_natDegree_lt (by omega : p.natDegree < i)]

/-- The bundled type is isomorphic to Mathlib's polynomial ring. -/
noncomputable def equiv : CPoly R ≃+* R[X] :=
  { Equiv.ofBijective val ⟨val_inj, val_surj⟩ with
    map_mul' := val_mul
    map_add' := val_add }

/-- The constant polynomial `Polynomial(c)` of a ring element, as a ring map: polynomials over `R` form an `R`-algebra. -/
instance algebra : Algebra R (CPoly R) :=
  RingHom.toAlgebra
    { toFun := fun c => mk [c]
      map_one' := val_inj (by simp [toPoly_cons, toPoly_nil])
      map_mul' := fun a b => val_inj (by simp [toPoly_cons, toPoly_nil])
      map_zero' := val_inj (by simp [toPoly_cons, toPoly_nil])
      map_add' := fun a b => val_inj (by simp [toPoly_cons, toPoly_nil]) }

theorem val_algebraMap (c : R) : (algebraMap R (CPoly R) c).val = Polynomial.C c := by
  change (mk [c]).val = _
  simp [toPoly_cons, toPoly_nil]

end CPoly

end Verif.Poly
