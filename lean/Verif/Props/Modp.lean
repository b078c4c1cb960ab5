import Verif.Proofs.Modp
import Verif.Proofs.Bytes
import Mathlib.Tactic.NormNum.Prime
/-!
# C01–C03: integers modulo p
-/

namespace Verif.Props

open Modp

/-- **C01** (representation and operators). Every constructed element is the representative in `[0, p)` of its integer;
`+ - * neg` on constructed elements give the element constructed from the integer result; `==` is congruence and `!=`
its negation. -/
theorem C01_modp_arithmetic (p : Nat) (hp : 0 < p) (a b : Int) :
    (0 ≤ mk p a ∧ mk p a < p ∧ mk p a ≡ a [ZMOD p]) ∧
    add p (mk p a) (mk p b) = (a + b) % p ∧
    sub p (mk p a) (mk p b) = (a - b) % p ∧
    mul p (mk p a) (mk p b) = (a * b) % p ∧
    neg p (mk p a) = (-a) % p ∧
    (eq (mk p a) (mk p b) = true ↔ a ≡ b [ZMOD p]) ∧
    (ne (mk p a) (mk p b) = true ↔ ¬ a ≡ b [ZMOD p]) := by
  have h := mk_range p hp a
  have hm : ∀ n, mk p n = n % p := fun n => fmod_nat n p
  refine ⟨⟨h.1, h.2, ?_⟩, ?_, ?_, ?_, ?_, ?_, ?_⟩
  · rw [hm]; exact Int.mod_modEq a p
  · rw [add, hm, hm, hm]; simp [Int.add_emod]
  · rw [sub, hm, hm, hm]; simp [Int.sub_emod]
  · rw [mul, hm, hm, hm]; simp [Int.mul_emod]
  · rw [neg, hm, hm]; exact ((Int.mod_modEq a p).neg)
  · rw [eq, hm, hm]; simp [Int.ModEq]
  · rw [ne, hm, hm]; simp [Int.ModEq]

/-- **C01** (field). For prime `p`, constructed elements with the code's operators are isomorphic to the field
`ZMod p`: every element is the class of its stored integer, and every class occurs. -/
theorem C01_modp_field (p : Nat) [Fact p.Prime] :
    ∃ e : Zp p ≃+* ZMod p,
      (∀ a : Zp p, e a = ((a.1 : Int) : ZMod p)) ∧
      (∀ a b : Zp p, (a + b).1 = add p a.1 b.1 ∧ (a - b).1 = sub p a.1 b.1 ∧ (a * b).1 = mul p a.1 b.1 ∧
        (-a).1 = neg p a.1) ∧
      (0 : Zp p).1 = mk p 0 ∧ (1 : Zp p).1 = mk p 1 :=
  ⟨Zp.equivZMod, fun _ => rfl, fun _ _ => ⟨rfl, rfl, rfl, rfl⟩, rfl, rfl⟩

/-- This meets the hypotheses of `C01_modp_arithmetic`. -/
example : (0 : Nat) < 7 ∧ add 7 (mk 7 (-3)) (mk 7 12) = 2 ∧ neg 7 (mk 7 0) = 0 := by decide
example : Fact (Nat.Prime 7) := ⟨by norm_num⟩

/-- **C02** (inversion). For every modulus `p > 1` and every stored integer `a ≥ 0`, `inverse()` returns a canonical
element that multiplies with `a` to one when `gcd(a, p) = 1`, and raises otherwise; it never fails to return. -/
theorem C02_inverse (p : Nat) (hp : 1 < p) (a : Int) (ha : 0 ≤ a) :
    (Int.gcd a p = 1 → ∃ x, inverse p a = .ok x ∧ 0 ≤ x ∧ x < p ∧ mul p a x = 1) ∧
    (Int.gcd a p ≠ 1 → inverse p a = .error .attributeError) := by
  have h1 : mk p 1 = 1 := mk_of_range p 1 (by omega) (by omega)
  rcases inverse_spec p a ha with ⟨hg, x, hx, hmul⟩ | ⟨hg, he⟩
  · refine ⟨fun _ => ⟨_, hx, (mk_range p (by omega) x).1, (mk_range p (by omega) x).2, ?_⟩, fun h => absurd hg h⟩
    rw [← h1, mul]
    unfold mk
    rw [fmod_nat, fmod_nat, fmod_nat]
    have : ((a * (x % p) : Int) : ZMod p) = ((1 : Int) : ZMod p) := by simpa using hmul
    rwa [ZMod.intCast_eq_intCast_iff'] at this
  · exact ⟨fun h => absurd h hg, fun _ => he⟩

/-- **C02** (division). For prime `p`: `b / a` with `a ≠ 0` returns the unique canonical `z` with `z * a = b`;
inverting or dividing by zero raises. -/
theorem C02_division (p : Nat) (hp : p.Prime) (a b : Int) (ha : 0 ≤ a) (ha' : a < p) (hb : 0 ≤ b) (hb' : b < p) :
    (a ≠ 0 → ∃ z, truediv p b a = .ok z ∧ (0 ≤ z ∧ z < p ∧ mul p z a = b) ∧
      ∀ w : Int, 0 ≤ w → w < p → mul p w a = b → w = z) ∧
    (a = 0 → inverse p a = .error .attributeError ∧ truediv p b a = .error .attributeError) := by
  have : Fact p.Prime := ⟨hp⟩
  constructor
  · intro h0
    have hcop : Int.gcd a p = 1 := by
      rw [Int.gcd_comm]
      apply Int.isCoprime_iff_gcd_eq_one.mp
      rw [Prime.coprime_iff_not_dvd (Nat.prime_iff_prime_int.mp hp)]
      intro hdvd
      have := Int.le_of_dvd (by omega) hdvd
      omega
    obtain ⟨x, hx, hx0, hx1, hm⟩ := (C02_inverse p hp.one_lt a ha).1 hcop
    let A : Zp p := ⟨a, ha, ha'⟩
    let B : Zp p := ⟨b, hb, hb'⟩
    let X : Zp p := ⟨x, hx0, hx1⟩
    have hAX : A * X = 1 := Subtype.ext (hm.trans (mk_of_range p 1 (by omega) (by have := hp.one_lt; omega)).symm)
    refine ⟨(B * X).1, by simp [truediv, hx, bind, Except.bind]; rfl, ⟨(B * X).2.1, (B * X).2.2, ?_⟩, ?_⟩
    · show (B * X * A).1 = B.1
      rw [mul_assoc, mul_comm X A, hAX, mul_one]
    · intro w hw0 hw1 hw
      let W : Zp p := ⟨w, hw0, hw1⟩
      have hWA : W * A = B := Subtype.ext hw
      show W.1 = _
      rw [← hWA, mul_assoc, hAX, mul_one]
  · intro h0
    subst h0
    have := (C02_inverse p hp.one_lt 0 le_rfl).2 (by simpa using hp.one_lt.ne')
    exact ⟨this, by simp [truediv, this, bind, Except.bind]⟩

/-- This meets the hypotheses of `C02_inverse`. -/
example : inverse 7 3 = .ok 5 ∧ truediv 7 2 3 = .ok 3 ∧ inverse 6 4 = .error .attributeError
    ∧ inverse 7 0 = .error .attributeError := by decide

/-- **C03** (bytes). `to_bytes` of an element whose integer fits 32 bytes is 32 bytes long and decodes to the same
element; otherwise it raises `OverflowError`; in particular it never raises for a canonical element when
`p ≤ 2^256`. -/
theorem C03_bytes_roundtrip (p : Nat) (a : Int) (ha : 0 ≤ a) (ha' : a < p) :
    (a < 2 ^ 256 → ∃ b, toBytes a = .ok b ∧ b.length = 32 ∧ mkBytes b = a) ∧
    ((2 : Int) ^ 256 ≤ a → toBytes a = .error .overflow) ∧
    (p ≤ 2 ^ 256 → ∃ b, toBytes a = .ok b) := by
  have e : (256 : Int) ^ 32 = 2 ^ 256 := by norm_num
  rcases intToBytes_spec a 32 with ⟨h0, h1, b, hb, hl, hv⟩ | ⟨h, he⟩
  · rw [e] at h1
    exact ⟨fun _ => ⟨b, hb, hl, hv⟩, fun h => by omega, fun _ => ⟨b, hb⟩⟩
  · rw [e] at h
    exact ⟨fun h' => by omega, fun _ => he, fun h' => by
      have : (p : Int) ≤ 2 ^ 256 := by exact_mod_cast h'
      omega⟩

example : ∃ b, toBytes 256 = .ok b ∧ b.length = 32 ∧ mkBytes b = 256 := (C03_bytes_roundtrip 257 256 (by norm_num) (by norm_num)).1 (by norm_num)

/-- **C03** (no reduction). The element built from a byte string is the one built from the encoded integer exactly when
that integer is below `p`. -/
theorem C03_bytes_constructor (p : Nat) (hp : 0 < p) (b : Bytes) :
    mkBytes b = mk p (fromBytes b) ↔ fromBytes b < p := by
  unfold mkBytes
  constructor
  · intro h
    have := (mk_range p hp (fromBytes b)).2
    omega
  · intro h
    exact (mk_of_range p _ (by omega) (by omega)).symm

example : mkBytes [1, 0] = 256 ∧ mk 7 256 = 4 := by decide

end Verif.Props
