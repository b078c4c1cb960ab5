import Verif.Spec.Rationals
import Verif.Proofs.Modp
import Verif.Proofs.Pow
import Verif.Props.Euclid
import Mathlib.Tactic.FieldSimp
/-! # Rationals modulo a prime -/

namespace Verif

theorem gcdLoop_int_nonneg : ∀ (fuel : Nat) (a b g : Int), 0 ≤ a → 0 ≤ b →
    gcdLoop intOps fuel a b = .ok g → 0 ≤ g
  | 0, _, _, _, _, _, h => by simp [gcdLoop] at h
  | fuel + 1, a, b, g, ha, hb, h => by
    unfold gcdLoop at h
    by_cases hpos : intOps.abs b > 0
    · have hb0 : b ≠ 0 := fun h0 => by simp [intOps, h0] at hpos
      rw [if_pos hpos] at h
      simp only [intOps, pyDivmod, hb0, if_false, bind, Except.bind] at h
      exact gcdLoop_int_nonneg fuel b _ g hb (Int.fmod_nonneg_of_pos a (by omega)) h
    · rw [if_neg hpos] at h
      simp only [Except.ok.injEq] at h
      omega

theorem gcd_int_eq (a b : Int) (ha : 0 ≤ a) (hb : 0 ≤ b) : gcd intOps a b = .ok (Int.gcd a b : Int) := by
  obtain ⟨g, hg, h⟩ := Props.C04_gcd_int a b
  have h0 : 0 ≤ g := by
    unfold gcd at hg
    split at hg
    · exact gcdLoop_int_nonneg _ b a g hb ha hg
    · exact gcdLoop_int_nonneg _ a b g ha hb hg
  rw [hg]; congr 1; omega

namespace Rat

variable (p : Nat) [hp : Fact p.Prime]

theorem Wf.den {x : Q} (h : Wf p x) : (x.n : ZMod p) ≠ 0 := by
  intro h0
  rw [ZMod.intCast_zmod_eq_zero_iff_dvd] at h0
  have := Int.le_of_dvd h.2.2.1 h0
  have := h.2.2.2.1
  omega

theorem cast_fmod (a : Int) : ((a.fmod p : Int) : ZMod p) = a := Modp.mk_cast p a

/-- `reduce` on non-negative components, the second positive. -/
theorem reduce_spec (a b : Int) (ha : 0 ≤ a) (hb : 0 < b) :
    reduce a b = .ok ⟨a / Int.gcd a b, b / Int.gcd a b⟩ := by
  have hg : (Int.gcd a b : Int) ≠ 0 := by
    have := Int.gcd_pos_of_ne_zero_right a hb.ne'; omega
  simp only [reduce, gcd_int_eq a b ha hb.le, bind, Except.bind, if_neg hg]
  rw [Int.fdiv_eq_ediv_of_nonneg _ (by omega), Int.fdiv_eq_ediv_of_nonneg _ (by omega)]

theorem quot_facts (a b : Int) (ha : 0 ≤ a) (hap : a < p) (hb : 0 < b) (hbp : b < p) :
    Wf p ⟨a / Int.gcd a b, b / Int.gcd a b⟩ ∧
      val p ⟨a / Int.gcd a b, b / Int.gcd a b⟩ = (a : ZMod p) / (b : ZMod p) := by
  have hgpos : 0 < Int.gcd a b := Int.gcd_pos_of_ne_zero_right a hb.ne'
  have hgI : (0 : Int) < Int.gcd a b := by exact_mod_cast hgpos
  obtain ⟨u, hu⟩ := Int.gcd_dvd_left a b
  obtain ⟨v, hv⟩ := Int.gcd_dvd_right a b
  have eu : a / (Int.gcd a b : Int) = u := by
    exact Int.ediv_eq_of_eq_mul_right hgI.ne' hu
  have ev : b / (Int.gcd a b : Int) = v := by
    exact Int.ediv_eq_of_eq_mul_right hgI.ne' hv
  have h1 : Int.gcd (a / Int.gcd a b) (b / Int.gcd a b) = 1 := Int.gcd_ediv_gcd_ediv_gcd hgpos
  have hu0 : 0 ≤ u := by rw [← eu]; exact Int.ediv_nonneg ha hgI.le
  have hv0 : 0 < v := by
    by_contra h
    have : b ≤ 0 := by rw [hv]; exact mul_nonpos_of_nonneg_of_nonpos hgI.le (by omega)
    omega
  have hul : u ≤ a := by rw [← eu]; exact Int.ediv_le_self _ ha
  have hvl : v ≤ b := by rw [← ev]; exact Int.ediv_le_self _ hb.le
  have hb0 : (b : ZMod p) ≠ 0 := by
    intro h0
    rw [ZMod.intCast_zmod_eq_zero_iff_dvd] at h0
    have := Int.le_of_dvd hb h0
    omega
  have hcast : (b : ZMod p) = ((Int.gcd a b : Int) : ZMod p) * (v : ZMod p) := by
    conv_lhs => rw [hv]
    push_cast; rfl
  have hcasta : (a : ZMod p) = ((Int.gcd a b : Int) : ZMod p) * (u : ZMod p) := by
    conv_lhs => rw [hu]
    push_cast; rfl
  have hg0 : ((Int.gcd a b : Int) : ZMod p) ≠ 0 := fun h => hb0 (by rw [hcast, h, zero_mul])
  rw [eu, ev] at h1 ⊢
  refine ⟨⟨hu0, lt_of_le_of_lt hul hap, hv0, lt_of_le_of_lt hvl hbp, h1⟩, ?_⟩
  show (u : ZMod p) / (v : ZMod p) = _
  rw [hcast, hcasta, mul_div_mul_left _ _ hg0]

theorem fmod_facts (n : Int) (hn : (n : ZMod p) ≠ 0) : 0 < n.fmod p ∧ n.fmod p < p := by
  have := Modp.mk_range p hp.out.pos n
  refine ⟨lt_of_le_of_ne this.1 fun h0 => hn ?_, this.2⟩
  rw [← cast_fmod p n]
  have : n.fmod p = 0 := h0.symm
  rw [this]; simp

theorem mk_spec (m n : Int) (hn : (n : ZMod p) ≠ 0) :
    ∃ x, mk p m n = .ok x ∧ Wf p x ∧ val p x = (m : ZMod p) / (n : ZMod p) := by
  obtain ⟨h1, h2⟩ := fmod_facts p n hn
  have hm := Modp.mk_range p hp.out.pos m
  have := quot_facts p (m.fmod p) (n.fmod p) hm.1 hm.2 h1 h2
  refine ⟨_, reduce_spec _ _ hm.1 h1, this.1, this.2.trans ?_⟩
  rw [cast_fmod, cast_fmod]

theorem finish_spec (a b : Int) (hb : (b : ZMod p) ≠ 0) :
    ∃ x, finish p (a.fmod p) (b.fmod p) = .ok x ∧ Wf p x ∧ val p x = (a : ZMod p) / (b : ZMod p) := by
  obtain ⟨h1, h2⟩ := fmod_facts p b hb
  have hm := Modp.mk_range p hp.out.pos a
  obtain ⟨hw, hv⟩ := quot_facts p (a.fmod p) (b.fmod p) hm.1 hm.2 h1 h2
  have hg : (Int.gcd (a.fmod p) (b.fmod p) : Int) ≠ 0 := by
    have := Int.gcd_pos_of_ne_zero_right (a.fmod p) h1.ne'; omega
  obtain ⟨x, hx, hxw, hxv⟩ := mk_spec p (a.fmod p / Int.gcd (a.fmod p) (b.fmod p)) _ hw.den
  refine ⟨x, ?_, hxw, ?_⟩
  · have e := gcd_int_eq (a.fmod p) (b.fmod p) hm.1 h1.le
    simp only [finish, e, bind, Except.bind, if_neg hg]
    rw [Int.fdiv_eq_ediv_of_nonneg _ (by omega), Int.fdiv_eq_ediv_of_nonneg _ (by omega)]
    exact hx
  · rw [hxv]
    refine hv.trans ?_
    rw [cast_fmod, cast_fmod]

variable {p}

theorem add_spec {x y : Q} (hx : Wf p x) (hy : Wf p y) :
    ∃ z, add p x y = .ok z ∧ Wf p z ∧ val p z = val p x + val p y := by
  have a := hx.den; have b := hy.den
  obtain ⟨z, h1, h2, h3⟩ := finish_spec p (x.m * y.n + y.m * x.n) (x.n * y.n) (by push_cast; exact mul_ne_zero a b)
  refine ⟨z, h1, h2, ?_⟩
  rw [h3, val, val]; push_cast; field_simp

theorem sub_spec {x y : Q} (hx : Wf p x) (hy : Wf p y) :
    ∃ z, sub p x y = .ok z ∧ Wf p z ∧ val p z = val p x - val p y := by
  have a := hx.den; have b := hy.den
  obtain ⟨z, h1, h2, h3⟩ := finish_spec p (x.m * y.n - y.m * x.n) (x.n * y.n) (by push_cast; exact mul_ne_zero a b)
  refine ⟨z, h1, h2, ?_⟩
  rw [h3, val, val]; push_cast; field_simp

theorem mul_spec {x y : Q} (hx : Wf p x) (hy : Wf p y) :
    ∃ z, mul p x y = .ok z ∧ Wf p z ∧ val p z = val p x * val p y := by
  have a := hx.den; have b := hy.den
  obtain ⟨z, h1, h2, h3⟩ := mk_spec p ((x.m * y.m).fmod p) ((x.n * y.n).fmod p)
    (by rw [cast_fmod]; push_cast; exact mul_ne_zero a b)
  refine ⟨z, h1, h2, ?_⟩
  rw [h3, cast_fmod, cast_fmod, val, val]; push_cast; field_simp

theorem neg_spec {x : Q} (hx : Wf p x) : ∃ z, neg p x = .ok z ∧ Wf p z ∧ val p z = - val p x := by
  obtain ⟨z, h1, h2, h3⟩ := mk_spec p (-x.m) x.n hx.den
  refine ⟨z, h1, h2, ?_⟩
  rw [h3, val]; push_cast; rw [neg_div]

theorem val_eq_zero {x : Q} (hx : Wf p x) : val p x = 0 ↔ x.m = 0 := by
  rw [val, div_eq_zero_iff, or_iff_left hx.den, ZMod.intCast_zmod_eq_zero_iff_dvd]
  constructor
  · intro h
    by_contra h0
    have := Int.le_of_dvd (by have := hx.1; omega) h
    have := hx.2.1; omega
  · intro h; simp [h]

theorem inverse_spec' {x : Q} (hx : Wf p x) (h0 : val p x ≠ 0) :
    ∃ z, inverse p x = .ok z ∧ Wf p z ∧ val p z = (val p x)⁻¹ := by
  have hm : x.m ≠ 0 := fun h => h0 ((val_eq_zero hx).mpr h)
  have hm' : (x.m : ZMod p) ≠ 0 := by
    intro h; exact h0 (by rw [val, h, zero_div])
  obtain ⟨z, h1, h2, h3⟩ := mk_spec p x.n x.m hm'
  refine ⟨z, ?_, h2, ?_⟩
  · rw [inverse, if_neg hm]; exact h1
  · rw [h3, val, inv_div]

theorem eq_spec {x y : Q} (hx : Wf p x) (hy : Wf p y) : eq p x y = true ↔ val p x = val p y := by
  have a := hx.den; have b := hy.den
  rw [eq, beq_iff_eq, val, val, div_eq_div_iff a b]
  show Modp.mk p _ = Modp.mk p _ ↔ _
  unfold Modp.mk
  rw [fmod_nat, fmod_nat]
  rw [← ZMod.intCast_eq_intCast_iff']
  push_cast; rfl

theorem mk1_spec (m : Int) : ∃ z, mk1 p m = .ok z ∧ Wf p z ∧ val p z = (m : ZMod p) := by
  obtain ⟨z, h1, h2, h3⟩ := mk_spec p m 1 (by simp)
  exact ⟨z, h1, h2, by rw [h3]; simp⟩

theorem pow_spec {x : Q} (hx : Wf p x) (n : Nat) :
    ∃ z, pow p x n = .ok z ∧ Wf p z ∧ val p z = val p x ^ n := by
  obtain ⟨o, h1, h2, h3⟩ := mk1_spec (p := p) 1
  obtain ⟨z, hz, hw, hv, -⟩ := powGen_spec (mul := mul p) (φ := val p) (P := Wf p) (Red := fun _ => True)
    (fun a b ha hb => by
      obtain ⟨c, c1, c2, c3⟩ := mul_spec ha hb
      exact ⟨c, c1, c2, trivial, c3⟩) h2 (by simpa using h3) hx n
  exact ⟨z, by simp only [pow, h1, bind, Except.bind]; exact hz, hw, hv⟩

end Rat
end Verif
