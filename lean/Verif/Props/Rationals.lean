import Verif.Proofs.Rationals
import Verif.Proofs.Bytes
import Verif.Proofs.SmallPrimes
/-!
# C53: `RationalsModP(p)` represents `Z/p`
-/

namespace Verif.Props

open Verif.Rat

/-- **C53** (constructor). For a prime `p` and all ints `m`, `n` with `p ∤ n`, `RationalsModP(p)(m, n)` is a fraction in
lowest terms, with both components reduced, denoting `m / n`. With one argument it denotes that integer. -/
theorem C53_constructor (p : Nat) [Fact p.Prime] (m n : Int) :
    (¬ (p : Int) ∣ n → ∃ x, mk p m n = .ok x ∧ Wf p x ∧ val p x * (n : ZMod p) = (m : ZMod p)) ∧
    (∃ x, mk1 p m = .ok x ∧ Wf p x ∧ val p x = (m : ZMod p)) := by
  refine ⟨fun hn => ?_, mk1_spec m⟩
  have hn' : (n : ZMod p) ≠ 0 := by rwa [Ne, ZMod.intCast_zmod_eq_zero_iff_dvd]
  obtain ⟨x, h1, h2, h3⟩ := mk_spec p m n hn'
  exact ⟨x, h1, h2, by rw [h3, div_mul_cancel₀ _ hn']⟩

/-- **C53** (operations). On fractions with invertible denominators every operation returns such a fraction again, and
computes the operation of the field `Z/p` on the values; `x ** k` is the `k`-th power. -/
theorem C53_operations (p : Nat) [Fact p.Prime] (x y : Q) (hx : Wf p x) (hy : Wf p y) :
    (∃ z, add p x y = .ok z ∧ Wf p z ∧ val p z = val p x + val p y) ∧
    (∃ z, sub p x y = .ok z ∧ Wf p z ∧ val p z = val p x - val p y) ∧
    (∃ z, mul p x y = .ok z ∧ Wf p z ∧ val p z = val p x * val p y) ∧
    (∃ z, neg p x = .ok z ∧ Wf p z ∧ val p z = - val p x) ∧
    (∀ k : Nat, ∃ z, pow p x k = .ok z ∧ Wf p z ∧ val p z = val p x ^ k) :=
  ⟨add_spec hx hy, sub_spec hx hy, mul_spec hx hy, neg_spec hx, pow_spec hx⟩

/-- **C53** (inversion and division). A fraction of non-zero value has an inverse, and one can divide by it; inverting or
dividing by a fraction of value zero raises. -/
theorem C53_division (p : Nat) [Fact p.Prime] (x y : Q) (hx : Wf p x) (hy : Wf p y) :
    (val p y ≠ 0 → (∃ z, inverse p y = .ok z ∧ Wf p z ∧ val p z * val p y = 1) ∧
      ∃ z, truediv p x y = .ok z ∧ Wf p z ∧ val p z * val p y = val p x) ∧
    (val p y = 0 → inverse p y = .error .exception ∧ truediv p x y = .error .exception) := by
  refine ⟨fun h0 => ?_, fun h0 => ?_⟩
  · obtain ⟨z, h1, h2, h3⟩ := inverse_spec' hy h0
    refine ⟨⟨z, h1, h2, by rw [h3, inv_mul_cancel₀ h0]⟩, ?_⟩
    obtain ⟨w, w1, w2, w3⟩ := mul_spec hx h2
    exact ⟨w, by simp only [truediv, h1, bind, Except.bind, w1], w2, by
      rw [w3, h3, mul_assoc, inv_mul_cancel₀ h0, mul_one]⟩
  · have hm := (val_eq_zero hy).mp h0
    have : inverse p y = .error .exception := by simp [inverse, hm]
    exact ⟨this, by simp [truediv, this, bind, Except.bind]⟩

/-- **C53** (equality). `==` holds exactly when the two values agree in `Z/p`. (Equal fractions need not have equal
components: see the example.) -/
theorem C53_equality (p : Nat) [Fact p.Prime] (x y : Q) (hx : Wf p x) (hy : Wf p y) :
    eq p x y = true ↔ val p x = val p y := eq_spec hx hy

/-- **C53** (`!=` is not the negation of `==`). `x != y` raises `NameError` for every pair of elements and every
modulus. -/
theorem C53_inequality_refuted (p : Nat) (x y : Q) : ne p x y = .error .nameError := rfl

/-- **C53** (every residue is represented). Every element of `Z/p` is the value of a fraction the constructor returns. -/
theorem C53_onto (p : Nat) [Fact p.Prime] (a : ZMod p) : ∃ m x, mk1 p m = .ok x ∧ Wf p x ∧ val p x = a := by
  obtain ⟨x, h1, h2, h3⟩ := mk1_spec (p := p) (a.val : Int)
  exact ⟨_, x, h1, h2, by rw [h3]; simp⟩

/-- **C53** (zero denominators). The constructor accepts a denominator divisible by `p`: it returns `0/0` or `1/0`. Adding
or subtracting two such elements raises `ZeroDivisionError`, and `0/0` compares equal to every element, so `==` is not
transitive once zero denominators are admitted. -/
theorem C53_zero_denominator (p : Nat) [hp : Fact p.Prime] (m n : Int) (hn : (p : Int) ∣ n) :
    mk p m n = .ok ⟨if (p : Int) ∣ m then 0 else 1, 0⟩ ∧
    (∀ a b : Int, add p ⟨a, 0⟩ ⟨b, 0⟩ = .error .zeroDivision ∧ sub p ⟨a, 0⟩ ⟨b, 0⟩ = .error .zeroDivision) ∧
    (∀ y : Q, eq p ⟨0, 0⟩ y = true) := by
  have hp0 := hp.out.pos
  have hf : n.fmod p = 0 := by rw [fmod_nat]; exact Int.emod_eq_zero_of_dvd hn
  have hm := Modp.mk_range p hp0 m
  have z0 : (0 : Int).fmod p = 0 := by rw [fmod_nat]; simp
  have e0 := gcd_int_eq 0 0 le_rfl le_rfl
  refine ⟨?_, fun a b => ?_, fun y => ?_⟩
  · have e := gcd_int_eq (m.fmod p) 0 hm.1 le_rfl
    simp only [mk, reduce, hf, e, bind, Except.bind]
    have hd : (p : Int) ∣ m ↔ m.fmod p = 0 := by rw [fmod_nat]; exact Int.dvd_iff_emod_eq_zero
    have hg : ((Int.gcd (m.fmod p) 0 : Nat) : Int) = m.fmod p := by
      rw [Int.gcd_zero_right]; have := hm.1; unfold Modp.mk at this; omega
    rw [hg]
    by_cases h : m.fmod p = 0
    · rw [if_pos h, if_pos (hd.mpr h), h]
    · rw [if_neg h, if_neg (fun h' => h (hd.mp h')), Int.fdiv_self h, Int.zero_fdiv]
  · constructor
    · simp [add, finish, e0, bind, Except.bind, z0]
    · simp [sub, finish, e0, bind, Except.bind, z0]
  · simp [eq]

example : mk 7 3 14 = .ok ⟨1, 0⟩ ∧ mk 7 21 14 = .ok ⟨0, 0⟩ :=
  haveI : Fact (Nat.Prime 7) := ⟨by norm_num⟩
  ⟨(C53_zero_denominator 7 3 14 (by norm_num)).1, (C53_zero_denominator 7 21 14 (by norm_num)).1⟩

/-- **C53** (bytes). For `p ≤ 2^256`, `to_bytes` of a fraction is 64 bytes long and decodes to the same components. -/
theorem C53_bytes_roundtrip (p : Nat) (hp : p ≤ 2 ^ 256) (x : Q) (hx : Wf p x) :
    ∃ b, toBytes x = .ok b ∧ b.length = 64 ∧ mkBytes b = .ok x := by
  have e : (256 : Int) ^ 32 = 2 ^ 256 := by norm_num
  have hp' : (p : Int) ≤ 2 ^ 256 := by exact_mod_cast hp
  obtain ⟨h1, h2, h3, h4, h5⟩ := hx
  rcases intToBytes_spec x.m 32 with ⟨-, -, a, ha, la, va⟩ | ⟨h, -⟩
  · rcases intToBytes_spec x.n 32 with ⟨-, -, b, hb, lb, vb⟩ | ⟨h, -⟩
    · refine ⟨a ++ b, by simp only [toBytes, ha, hb, bind, Except.bind], by simp [la, lb], ?_⟩
      have t : (a ++ b).take 32 = a := by rw [← la]; simp
      have d : (a ++ b).drop 32 = b := by rw [← la]; simp
      rw [mkBytes, t, d]
      rw [va, vb, reduce_spec _ _ h1 h3, h5]
      simp
    · rw [e] at h; omega
  · rw [e] at h; omega

example : Fact (Nat.Prime 7) := inferInstance
/-- `1/2` and `4/1` are equal modulo 7 with different components; `1/2 + 3/4 = 5/4`. -/
example : mk 7 1 2 = .ok ⟨1, 2⟩ ∧ mk1 7 4 = .ok ⟨4, 1⟩ ∧ eq 7 ⟨1, 2⟩ ⟨4, 1⟩ = true ∧ mk 7 (-6) 10 = .ok ⟨1, 3⟩ ∧
    add 7 ⟨1, 2⟩ ⟨3, 4⟩ = .ok ⟨3, 1⟩ ∧ truediv 7 ⟨1, 2⟩ ⟨3, 4⟩ = .ok ⟨2, 3⟩ ∧ inverse 7 ⟨0, 1⟩ = .error .exception ∧
    pow 7 ⟨1, 2⟩ 5 = .ok ⟨1, 4⟩ ∧ eq 7 ⟨1, 4⟩ ⟨2, 1⟩ = true ∧ mk 7 3 7 = .ok ⟨1, 0⟩ := by decide +kernel
/-- The hypotheses hold of a non-trivial pair. This meets the hypotheses of `C53_operations`, `C53_division`, `C53_equality`. -/
example : Wf 7 ⟨1, 2⟩ ∧ Wf 7 ⟨3, 4⟩ ∧ val 7 ⟨3, 4⟩ = 6 := by
  refine ⟨by unfold Wf; decide, by unfold Wf; decide, ?_⟩
  have h4 : (4 : ZMod 7) ≠ 0 := by decide
  show ((3 : Int) : ZMod 7) / ((4 : Int) : ZMod 7) = 6
  rw [div_eq_iff (by simpa using h4)]
  decide
/-- `1/0 == 0/0 == 2/1` but not `1/0 == 2/1`. -/
example : eq 7 ⟨1, 0⟩ ⟨0, 0⟩ = true ∧ eq 7 ⟨0, 0⟩ ⟨2, 1⟩ = true ∧ eq 7 ⟨1, 0⟩ ⟨2, 1⟩ = false := by decide

end Verif.Props
