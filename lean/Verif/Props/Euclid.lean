import Verif.Proofs.Euclid
import Mathlib.Data.Int.GCD
/-!
# C04: Euclid's algorithm on Python ints
-/

namespace Verif.Props

/-- **C04** (`gcd`). For all ints, in either order and of either sign, `gcd` returns, and the absolute value of the
result is the greatest common divisor. -/
theorem C04_gcd_int (a b : Int) : ∃ g, gcd intOps a b = .ok g ∧ g.natAbs = Int.gcd a b := by
  obtain ⟨g, hg, -, hd⟩ := gcd_spec intLaw a b trivial trivial
  refine ⟨g, hg, Nat.dvd_antisymm ?_ ?_⟩
  · have := (hd g).mp dvd_rfl
    exact Int.natCast_dvd_natCast.mp ((Int.dvd_coe_gcd ((Int.natAbs_dvd).mpr this.1) ((Int.natAbs_dvd).mpr this.2)))
  · have := (hd (Int.gcd a b)).mpr ⟨Int.gcd_dvd_left .., Int.gcd_dvd_right ..⟩
    exact Int.natCast_dvd.mp this

/-- **C04** (`extended_euclidean_algorithm`). It returns `(x, y, d)` with `a x + b y = d` and `|d|` the greatest common
divisor; for non-negative arguments `d` is itself the greatest common divisor. -/
theorem C04_extended_euclid_int (a b : Int) :
    ∃ x y d, xgcd intOps a b = .ok (x, y, d) ∧ a * x + b * y = d ∧ d.natAbs = Int.gcd a b ∧
      (0 ≤ a → 0 ≤ b → d = Int.gcd a b) := by
  obtain ⟨x, y, g, h, -, -, -, hbez, hd⟩ := xgcd_spec intLaw a b trivial trivial
  have hg : g.natAbs = Int.gcd a b := by
    apply Nat.dvd_antisymm
    · have := (hd g).mp dvd_rfl
      exact Int.natCast_dvd_natCast.mp ((Int.dvd_coe_gcd ((Int.natAbs_dvd).mpr this.1) ((Int.natAbs_dvd).mpr this.2)))
    · have := (hd (Int.gcd a b)).mpr ⟨Int.gcd_dvd_left .., Int.gcd_dvd_right ..⟩
      exact Int.natCast_dvd.mp this
  refine ⟨x, y, g, h, hbez, hg, fun ha hb => ?_⟩
  have := xgcd_int_nonneg a b x y g ha hb h
  omega

example : gcd intOps 12 (-18) = .ok 6 ∧ gcd intOps 0 0 = .ok 0 ∧
    xgcd intOps 240 46 = .ok (-9, 47, 2) ∧ xgcd intOps 46 240 = .ok (47, -9, 2) := by decide

end Verif.Props
