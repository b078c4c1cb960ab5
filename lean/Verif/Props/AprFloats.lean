import Verif.Props.Apr
import Verif.Spec.Float
import Mathlib.Data.Int.Interval
/-!
# C92: the rates as floats

`apr.py:152, 162` divide ints with `/`, so the rates are the doubles next to the quotients of `C92_rates_partial`.
-/

namespace Verif.Props
open Poly FF Spec Apr

theorem isDouble_zero : IsDouble 0 := ⟨0, 0, by norm_num, by norm_num, by norm_num, by norm_num⟩
theorem isDouble_half : IsDouble (1 / 2) := ⟨1, -1, by norm_num, by norm_num, by norm_num, by norm_num⟩
theorem isDouble_least : IsDouble (2 ^ (-1074 : Int)) := ⟨1, -1074, by norm_num, by norm_num, by norm_num, by rw [Int.cast_one, one_mul]⟩

theorem double_lower {y : ℚ} (h : IsDouble y) (h0 : y ≠ 0) : 2 ^ (-1074 : Int) ≤ |y| := by
  obtain ⟨s, e, -, h2, -, rfl⟩ := h
  have hs : s ≠ 0 := by rintro rfl; simp at h0
  have h1 : (1 : ℚ) ≤ |(s : ℚ)| := by exact_mod_cast Int.one_le_abs hs
  rw [abs_mul, abs_of_pos (by positivity : (0 : ℚ) < 2 ^ e)]
  calc (2 : ℚ) ^ (-1074 : Int) ≤ 2 ^ e := zpow_le_zpow_right₀ (by norm_num) h2
    _ = 1 * 2 ^ e := (one_mul _).symm
    _ ≤ |(s : ℚ)| * 2 ^ e := mul_le_mul_of_nonneg_right h1 (by positivity)

theorem least_eq : (2 : ℚ) ^ (-1074 : Int) * 2 ^ 1075 = 2 := by
  rw [← zpow_natCast (2 : ℚ) 1075, ← zpow_add₀ (by norm_num)]
  norm_num

theorem rounded_zero {x : ℚ} (hx : |x| * 2 ^ 1075 < 1) (y : ℚ) : Rounded x y ↔ y = 0 := by
  have h4 := least_eq
  have hb : ∀ z : ℚ, 2 ^ (-1074 : Int) ≤ |z| → |x| < |z - x| := by
    intro z h1
    have hp : (0 : ℚ) < 2 ^ 1075 := by positivity
    generalize (2 : ℚ) ^ (-1074 : Int) = ε at h1 h4
    generalize (2 : ℚ) ^ 1075 = M at h4 hp hx
    have h3 : |z| ≤ |z - x| + |x| := by simpa using abs_add_le (z - x) x
    by_contra hc
    have h5 : ε ≤ 2 * |x| := by linarith
    have h6 : ε * M ≤ 2 * |x| * M := mul_le_mul_of_nonneg_right h5 hp.le
    rw [h4] at h6
    linarith
  constructor
  · intro h
    by_contra h0
    have h2 := h.2 0 isDouble_zero
    rw [zero_sub, abs_neg] at h2
    exact absurd (hb y (double_lower h.1 h0)) (not_lt.2 h2)
  · rintro rfl
    refine ⟨isDouble_zero, fun z hz => ?_⟩
    rw [zero_sub, abs_neg]
    by_cases h0 : z = 0
    · rw [h0, zero_sub, abs_neg]
    · exact (hb z (double_lower hz h0)).le

theorem finite_doubles : {y | IsDouble y}.Finite := by
  refine Set.Finite.subset (Set.Finite.image2 (fun (s e : Int) => (s : ℚ) * 2 ^ e) (Set.finite_Icc (-2 ^ 53) (2 ^ 53))
    (Set.finite_Icc (-1074) 971)) ?_
  rintro y ⟨s, e, h1, h2, h3, rfl⟩
  have := abs_lt.1 h1
  exact ⟨s, ⟨this.1.le, this.2.le⟩, e, ⟨h2, h3⟩, rfl⟩

/-- Every quotient can be rounded. -/
theorem rounded_exists (x : ℚ) : ∃ y, Rounded x y := by
  obtain ⟨y, h1, h2⟩ := Set.exists_min_image {y | IsDouble y} (fun y => |y - x|) finite_doubles ⟨0, isDouble_zero⟩
  exact ⟨y, h1, h2⟩

theorem rounded_le {x y z : ℚ} (h : Rounded x y) (hz : IsDouble z) (hx : x ≤ z) : y ≤ z := by
  by_contra hc
  have := h.2 z hz
  rw [abs_of_nonneg (by linarith), abs_of_nonneg (by linarith)] at this
  linarith

theorem rounded_ge {x y z : ℚ} (h : Rounded x y) (hz : IsDouble z) (hx : z ≤ x) : z ≤ y := by
  by_contra hc
  have := h.2 z hz
  rw [abs_of_nonpos (by linarith), abs_of_nonpos (by linarith)] at this
  linarith

section
variable {p : Nat} [hp : Fact p.Prime] {f : List (Zp p)} [hf : IsModulus f]
variable (factorint : Nat → List Nat) (draws : Nat → List (Zp p)) (inner fuel : Nat)
variable (division : Mv.Dict (Fq f) → List (Fq f) → Py (Mv.Dict (Fq f))) (parse : List (Fq f) → Py (Mv.Dict (Fq f)))
variable {n width : Nat} {inp : List (Fq f)} {steps : Int} {polys : List (Mv.Dict (Fq f))} (hw : ∀ g ∈ polys, Mv.WF n g)
  {air : Air.AIR (Fq f)} (hair : Air.mkAIR n width inp steps polys = .ok air) (hdr : ∀ i, (draws i).length = width)

include hw hair hdr in
/-- **C92**, for the floats themselves.  Over a field of `q` elements with `q^(26 + k) ≤ 2^1074`, the composition rate is a float between 0
and 1/2, exclusive of 0, and so is every register's rate if the registers are fewer than the rows; in any case no rate exceeds 1/2. -/
theorem C92_floats_partial {m k : Nat} (hm : 1 ≤ m) {A : APR (Zp p) (Fq f)}
    (hA : apr factorint draws inner fuel division parse m air k = .ok A) :
    (∀ y, Rounded A.rhoCmp y → y ≤ 1 / 2 ∧ ((p ^ m) ^ (26 + k) ≤ 2 ^ 1074 → 0 < y)) ∧
    ∀ ρ ∈ A.rhoJs, ∀ y, Rounded ρ y → y ≤ 1 / 2 ∧ ((p ^ m) ^ (26 + k) ≤ 2 ^ 1074 → width < 2 ^ (k + A.t) → 0 < y) := by
  obtain ⟨z, -, hF⟩ := apr_facts factorint draws inner fuel division parse hw hair hdr hA
  obtain ⟨-, -, -, -, -, -, -, hc, -⟩ := air_facts hw hair
  have hd : A.d ≤ 11 := by
    have : Nat.log 2 air.cdegree ≤ Nat.log 2 1024 := Nat.log_mono_right hc
    rw [show Nat.log 2 1024 = 10 by decide] at this
    rw [hF.d_eq]
    omega
  have hq : 2 ≤ p ^ m := le_trans hp.out.two_le (Nat.le_self_pow (by omega) p)
  have hpow : ∀ e, 2 ^ e ≤ (p ^ m) ^ e := fun e => Nat.pow_le_pow_left hq e
  have hL : A.L.basis.length = 15 + k + A.d := by
    rw [hF.L_eq]
    simp only [List.length_append, List.length_map, List.length_range, List.length_singleton]
    omega
  have hLc : A.Lcmp.basis.length = 14 + k + A.d := by
    rw [hF.Lcmp_eq]
    simp only [List.length_map, List.length_range]
    omega
  have hpos' : ∀ e, (0 : ℚ) < (((p ^ m) ^ e : Nat) : ℚ) := fun e => by
    exact_mod_cast lt_of_lt_of_le (by positivity) (hpow e)
  have hpos : ∀ a y : ℚ, ∀ e, 1 ≤ a → e ≤ 26 + k → Rounded (a / (((p ^ m) ^ e : Nat) : ℚ)) y →
      (p ^ m) ^ (26 + k) ≤ 2 ^ 1074 → 0 < y := by
    intro a y e ha he h hb
    refine lt_of_lt_of_le (by positivity) (rounded_ge h isDouble_least ?_)
    have h1 : (p ^ m) ^ e ≤ 2 ^ 1074 := le_trans (Nat.pow_le_pow_right (by omega) he) hb
    have h2 : (((p ^ m) ^ e : Nat) : ℚ) ≤ ((2 ^ 1074 : Nat) : ℚ) := by exact_mod_cast h1
    rw [zpow_neg, le_div_iff₀ (hpos' _), inv_mul_le_iff₀ (by positivity)]
    refine le_trans h2 ?_
    rw [Nat.cast_pow, Nat.cast_ofNat, ← zpow_natCast (2 : ℚ) 1074]
    exact le_mul_of_one_le_right (by positivity) ha
  have hhalf : A.rhoCmp ≤ 1 / 2 := by
    rw [hF.rhoCmp_eq, rhoCmp, ReedSolomon.affineLen, hLc, div_le_div_iff₀ (hpos' _) (by norm_num)]
    have h2 : (1 + 2 ^ (k + 8 + A.d)) * 2 ≤ (p ^ m) ^ (14 + k + A.d) := by
      refine le_trans ?_ (hpow _)
      have : 2 ^ (14 + k + A.d) = 2 ^ 6 * 2 ^ (k + 8 + A.d) := by rw [← pow_add]; congr 1; omega
      have := Nat.one_le_two_pow (n := k + 8 + A.d)
      omega
    rw [one_mul]
    exact_mod_cast h2
  refine ⟨fun y h => ⟨rounded_le h isDouble_half hhalf, ?_⟩, fun ρ hρ y h => ?_⟩
  · rw [hF.rhoCmp_eq, rhoCmp, ReedSolomon.affineLen, hLc] at h
    refine hpos _ y _ ?_ (by omega) h
    have : (0 : ℚ) ≤ 2 ^ (k + 8 + A.d) := by positivity
    linarith
  rw [rho_value hF] at hρ
  obtain rfl := List.eq_of_mem_replicate hρ
  rw [hL] at h
  refine ⟨rounded_le h isDouble_half ?_, fun hb hwd => hpos _ y _ ?_ (by omega) h hb⟩
  · rw [div_le_div_iff₀ (hpos' _) (by norm_num), one_mul]
    have h2 : 2 ^ (k + 8) * 2 ≤ (p ^ m) ^ (15 + k + A.d) := by
      refine le_trans ?_ (hpow _)
      rw [← pow_succ]
      exact Nat.pow_le_pow_right (by norm_num) (by omega)
    have h3 : ((2 ^ (k + 8) * 2 : Nat) : ℚ) ≤ (((p ^ m) ^ (15 + k + A.d) : Nat) : ℚ) := by exact_mod_cast h2
    push_cast at h3 ⊢
    have : (0 : ℚ) ≤ width := by positivity
    linarith
  · rw [hF.t_eq] at hwd
    have h3 : ((width + 1 : Nat) : ℚ) ≤ ((2 ^ (k + 8) : Nat) : ℚ) := by exact_mod_cast hwd
    push_cast at h3
    linarith

include hw hair hdr in
/-- **C92** fails over large fields: as soon as `2^(1084 + k) < q^(14 + k)`, for a field of `q` elements, every rate is the float 0.0.  With
the default expansion `k = 5` this covers every field of at least `2^58` elements. -/
theorem C92_underflow_refuted {m k : Nat} {A : APR (Zp p) (Fq f)}
    (hA : apr factorint draws inner fuel division parse m air k = .ok A) (hwd : width ≤ 2 ^ (k + A.t))
    (hq : 2 ^ (1084 + k) < (p ^ m) ^ (14 + k)) :
    (∀ y, Rounded A.rhoCmp y ↔ y = 0) ∧ ∀ ρ ∈ A.rhoJs, ∀ y, Rounded ρ y ↔ y = 0 := by
  obtain ⟨z, -, hF⟩ := apr_facts factorint draws inner fuel division parse hw hair hdr hA
  have hq2 : 2 ≤ p ^ m := by
    rcases Nat.lt_or_ge (p ^ m) 2 with h | h
    · have : (p ^ m) ^ (14 + k) ≤ 1 := by
        calc (p ^ m) ^ (14 + k) ≤ 1 ^ (14 + k) := Nat.pow_le_pow_left (by omega) _
          _ = 1 := one_pow _
      have := Nat.one_le_two_pow (n := 1084 + k)
      omega
    · exact h
  have hbig : ∀ e, 2 ^ (1084 + k + e) < (p ^ m) ^ (14 + k + e) := fun e => by
    rw [pow_add _ (1084 + k) e, pow_add _ (14 + k) e]
    exact Nat.mul_lt_mul_of_lt_of_le hq (Nat.pow_le_pow_left hq2 e) (by positivity)
  have hL : A.L.basis.length = 15 + k + A.d := by
    rw [hF.L_eq]
    simp only [List.length_append, List.length_map, List.length_range, List.length_singleton]
    omega
  have hLc : A.Lcmp.basis.length = 14 + k + A.d := by
    rw [hF.Lcmp_eq]
    simp only [List.length_map, List.length_range]
    omega
  have hpos' : ∀ e, (0 : ℚ) < (((p ^ m) ^ e : Nat) : ℚ) := fun e => by
    exact_mod_cast Nat.pow_pos (by omega : 0 < p ^ m)
  constructor
  · refine rounded_zero ?_
    have h2 : (1 + 2 ^ (k + 8 + A.d)) * 2 ^ 1075 < (p ^ m) ^ (14 + k + A.d) := by
      refine lt_of_le_of_lt ?_ (hbig A.d)
      have h3 : 2 ^ (1084 + k + A.d) = 2 ^ (k + 8 + A.d) * 2 * 2 ^ 1075 := by
        rw [← pow_succ, ← pow_add]; congr 1; omega
      rw [h3]
      refine Nat.mul_le_mul_right _ ?_
      have := Nat.one_le_two_pow (n := k + 8 + A.d)
      omega
    rw [hF.rhoCmp_eq, rhoCmp, ReedSolomon.affineLen, hLc, abs_of_nonneg (by positivity), div_mul_eq_mul_div, div_lt_one (hpos' _)]
    exact_mod_cast h2
  · intro ρ hρ
    refine rounded_zero ?_
    rw [rho_value hF] at hρ
    rw [hF.t_eq] at hwd
    have hw0 : (0 : ℚ) ≤ 2 ^ (k + 8) - width := by
      rw [sub_nonneg]; exact_mod_cast hwd
    have h2 : 2 ^ (k + 8) * 2 ^ 1075 < (p ^ m) ^ (15 + k + A.d) := by
      rw [← pow_add]
      refine lt_of_le_of_lt (Nat.pow_le_pow_right (by norm_num) (by omega : k + 8 + 1075 ≤ 1084 + k + (A.d + 1))) ?_
      have := hbig (A.d + 1)
      rwa [show 14 + k + (A.d + 1) = 15 + k + A.d by omega] at this
    rw [List.eq_of_mem_replicate hρ, hL, abs_of_nonneg (div_nonneg hw0 (hpos' _).le), div_mul_eq_mul_div, div_lt_one (hpos' _)]
    have h3 : ((2 ^ (k + 8) * 2 ^ 1075 : Nat) : ℚ) < (((p ^ m) ^ (15 + k + A.d) : Nat) : ℚ) := by exact_mod_cast h2
    rw [Nat.cast_mul, Nat.cast_pow, Nat.cast_pow, Nat.cast_ofNat] at h3
    refine lt_of_le_of_lt (mul_le_mul_of_nonneg_right ?_ (by positivity)) h3
    have : (0 : ℚ) ≤ width := by positivity
    linarith

end

/-! The Fibonacci program over GF(8).  Without expansion its rates are positive floats; with `k = 522` they are 0.0. -/

example : ∃ (A : APR (Zp 2) (Fq gf8)), A.rhoJs.length = 2 ∧ ∀ ρ ∈ A.rhoJs, ∃ y, Rounded ρ y ∧ 0 < y ∧ y ≤ 1 / 2 := by
  obtain ⟨air, A, h1, h2⟩ := fib_apr 0
  obtain ⟨z, -, hF⟩ := apr_facts _ _ _ _ _ _ (wf_fibR _) h1 (fun _ => rfl) h2
  obtain ⟨-, -, hl, -⟩ := C92_rates_partial _ _ _ _ _ _ (wf_fibR _) h1 (fun _ => rfl) (by norm_num) h2
  refine ⟨A, hl, fun ρ hρ => ?_⟩
  obtain ⟨y, hy⟩ := rounded_exists ρ
  obtain ⟨h3, h4⟩ := (C92_floats_partial _ _ _ _ _ _ (wf_fibR _) h1 (fun _ => rfl) (by norm_num) h2).2 ρ hρ y hy
  refine ⟨y, hy, h4 ?_ (by rw [hF.t_eq]; norm_num), h3⟩
  rw [← pow_mul]
  exact Nat.pow_le_pow_right (by norm_num) (by norm_num)

example : ∃ (A : APR (Zp 2) (Fq gf8)), A.rhoJs.length = 2 ∧ ∀ ρ ∈ A.rhoJs, 0 < ρ ∧ ∀ y, Rounded ρ y ↔ y = 0 := by
  obtain ⟨air, A, h1, h2⟩ := fib_apr 522
  obtain ⟨z, -, hF⟩ := apr_facts _ _ _ _ _ _ (wf_fibR _) h1 (fun _ => rfl) h2
  have hk : 2 < 2 ^ (522 + A.t) := lt_of_lt_of_le (by norm_num : 2 < 2 ^ 2) (Nat.pow_le_pow_right (by norm_num) (by omega))
  obtain ⟨-, -, hl, -, hpos⟩ := C92_rates_partial _ _ _ _ _ _ (wf_fibR _) h1 (fun _ => rfl) (by norm_num) h2
  refine ⟨A, hl, fun ρ hρ => ⟨hpos.2 hk ρ hρ, (C92_underflow_refuted _ _ _ _ _ _ (wf_fibR _) h1 (fun _ => rfl) h2 hk.le ?_).2 ρ hρ⟩⟩
  rw [← pow_mul]
  exact Nat.pow_lt_pow_right (by norm_num) (by norm_num)

end Verif.Props
