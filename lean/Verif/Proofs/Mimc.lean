import Verif.Model.Utils
import Mathlib.FieldTheory.Finite.Basic
import Mathlib.Tactic.NormNum.Prime
/-! # MiMC: every round is a permutation -/

namespace Verif.Utils

theorem cube_injective {p : Nat} [Fact p.Prime] (h3 : p % 3 = 2) : Function.Injective (fun x : ZMod p => x ^ 3) := by
  have hx : ∀ x : ZMod p, (x ^ 3) ^ ((2 * p - 1) / 3) = x := by
    intro x
    have hp : 1 ≤ p := (Fact.out : p.Prime).one_le
    have e : 3 * ((2 * p - 1) / 3) = p + (p - 1) := by omega
    rw [← pow_mul, e, pow_add, ZMod.pow_card, ← pow_succ', show p - 1 + 1 = p by omega, ZMod.pow_card]
  intro x y h
  have h' : x ^ 3 = y ^ 3 := h
  rw [← hx x, ← hx y, h']

theorem round_injective {p : Nat} [Fact p.Prime] (h3 : p % 3 = 2) (c : Int) {x y : Int}
    (hx : 0 ≤ x ∧ x < p) (hy : 0 ≤ y ∧ y < p) (h : (x ^ 3 + c).fmod p = (y ^ 3 + c).fmod p) : x = y := by
  rw [Int.fmod_eq_emod_of_nonneg _ (by omega), Int.fmod_eq_emod_of_nonneg _ (by omega)] at h
  have h' := (ZMod.intCast_eq_intCast_iff _ _ p).2 h
  push_cast at h'
  have := cube_injective h3 (add_right_cancel h' : ((x : ZMod p)) ^ 3 = (y : ZMod p) ^ 3)
  have := (ZMod.intCast_eq_intCast_iff _ _ p).1 this
  unfold Int.ModEq at this
  rwa [Int.emod_eq_of_lt hx.1 hx.2, Int.emod_eq_of_lt hy.1 hy.2] at this

theorem mimcLoop_spec {p : Nat} [Fact p.Prime] (h3 : p % 3 = 2) (rc : List Int) (hrc : rc ≠ []) :
    ∀ (n i : Nat), ∃ f : Int → Int, (∀ x, mimcLoop p rc n i x = .ok (f x)) ∧
      (∀ x : Int, 0 ≤ x ∧ x < p → 0 ≤ f x ∧ f x < p) ∧
      (∀ x y : Int, 0 ≤ x ∧ x < p → 0 ≤ y ∧ y < p → f x = f y → x = y)
  | 0, i => ⟨id, fun _ => rfl, fun _ h => h, fun _ _ _ _ h => h⟩
  | n + 1, i => by
    have hp : 0 < (p : Int) := by exact_mod_cast (Fact.out : p.Prime).pos
    obtain ⟨f, h1, h2, h4⟩ := mimcLoop_spec h3 rc hrc n (i + 1)
    have hl : 0 < rc.length := List.length_pos_iff.2 hrc
    have hlt := Nat.mod_lt i hl
    have hr : ∀ z : Int, 0 ≤ z.fmod p ∧ z.fmod p < p := fun z =>
      ⟨Int.fmod_nonneg_of_pos _ hp, Int.fmod_lt_of_pos _ hp⟩
    refine ⟨fun x => f ((x ^ 3 + rc[i % rc.length]).fmod p), ?_, ?_, ?_⟩
    · intro x
      simp only [mimcLoop, pyIdx, List.getElem?_eq_getElem hlt, bind, Except.bind, if_neg hl.ne']
      exact h1 _
    · intro x _; exact h2 _ (hr _)
    · intro x y hx hy h
      exact round_injective h3 _ hx hy (h4 _ _ (hr _) (hr _) h)

end Verif.Utils
