import Verif.Model.ElementEuclid
import Verif.Props.Euclid
import Verif.Props.Polynomial
import Verif.Props.AdditiveFFT
/-!
# C119: Euclid's algorithm on field elements
-/

namespace Verif.Props
open ElementEuclid Poly
open scoped Polynomial

/-! ### Simulation -/

/-- `E` computes with the images under `σ` of the values `E'` computes with; `P` holds of the reduced values, `Q` of all. -/
structure Sim {α β : Type _} (E : EuclidOps α) (E' : EuclidOps β) (σ : β → α) (P Q : β → Prop) : Prop where
  reduced : ∀ a, P a → Q a
  abs : ∀ a, P a → E.abs (σ a) = E'.abs a
  zero : Q E'.zero ∧ σ E'.zero = E.zero
  one : Q E'.one ∧ σ E'.one = E.one
  sub : ∀ a b, Q a → Q b → Q (E'.sub a b) ∧ E.sub (σ a) (σ b) = σ (E'.sub a b)
  mul : ∀ a b, Q a → Q b → Q (E'.mul a b) ∧ E.mul (σ a) (σ b) = σ (E'.mul a b)
  divmod : ∀ a b, P a → P b → 0 < E'.abs b → ∃ q r, E'.divmod a b = .ok (q, r) ∧ Q q ∧ P r ∧ E.divmod (σ a) (σ b) = .ok (σ q, σ r)

section
variable {α β : Type _} {E : EuclidOps α} {E' : EuclidOps β} {σ : β → α} {P Q : β → Prop}

theorem Sim.gcdLoop (h : Sim E E' σ P Q) : ∀ (fuel : Nat) (a b g : β), P a → P b → gcdLoop E' fuel a b = .ok g →
    P g ∧ Verif.gcdLoop E fuel (σ a) (σ b) = .ok (σ g)
  | 0, _, _, _, _, _, e => by simp [Verif.gcdLoop] at e
  | fuel + 1, a, b, g, ha, hb, e => by
    unfold Verif.gcdLoop at e ⊢
    rw [h.abs b hb]
    by_cases h0 : E'.abs b > 0
    · obtain ⟨q, r, h1, -, h3, h4⟩ := h.divmod a b ha hb h0
      simp only [h0, if_true, h1, h4, bind, Except.bind] at e ⊢
      exact h.gcdLoop fuel b r g hb h3 e
    · simp only [h0, if_false, Except.ok.injEq] at e ⊢
      subst e
      exact ⟨ha, rfl⟩

theorem Sim.gcd (h : Sim E E' σ P Q) {a b g : β} (ha : P a) (hb : P b) (e : gcd E' a b = .ok g) :
    P g ∧ Verif.gcd E (σ a) (σ b) = .ok (σ g) := by
  unfold Verif.gcd at e ⊢
  rw [h.abs a ha, h.abs b hb]
  split at e
  · next h0 => rw [if_pos h0]; exact h.gcdLoop _ _ _ _ hb ha e
  · next h0 => rw [if_neg h0]; exact h.gcdLoop _ _ _ _ ha hb e

theorem Sim.xgcdLoop (h : Sim E E' σ P Q) : ∀ (fuel : Nat) (a b x2 x1 y2 y1 x y g : β), P a → P b → Q x2 → Q x1 → Q y2 → Q y1 →
    xgcdLoop E' fuel a b x2 x1 y2 y1 = .ok (x, y, g) →
    P g ∧ Verif.xgcdLoop E fuel (σ a) (σ b) (σ x2) (σ x1) (σ y2) (σ y1) = .ok (σ x, σ y, σ g)
  | 0, _, _, _, _, _, _, _, _, _, _, _, _, _, _, _, e => by simp [Verif.xgcdLoop] at e
  | fuel + 1, a, b, x2, x1, y2, y1, x, y, g, ha, hb, hx2, hx1, hy2, hy1, e => by
    unfold Verif.xgcdLoop at e ⊢
    rw [h.abs b hb]
    by_cases h0 : E'.abs b > 0
    · obtain ⟨q, r, h1, h2, h3, h4⟩ := h.divmod a b ha hb h0
      simp only [h0, if_true, h1, h4, bind, Except.bind] at e ⊢
      obtain ⟨m1, e1⟩ := h.mul q x1 h2 hx1
      obtain ⟨m2, e2⟩ := h.mul q y1 h2 hy1
      obtain ⟨s1, e3⟩ := h.sub x2 _ hx2 m1
      obtain ⟨s2, e4⟩ := h.sub y2 _ hy2 m2
      rw [e1, e2, e3, e4]
      exact h.xgcdLoop fuel b r _ _ _ _ x y g hb h3 hx1 s1 hy1 s2 e
    · simp only [h0, if_false, Except.ok.injEq, Prod.mk.injEq] at e ⊢
      obtain ⟨rfl, rfl, rfl⟩ := e
      exact ⟨ha, rfl, rfl, rfl⟩

theorem Sim.xgcd (h : Sim E E' σ P Q) {a b x y g : β} (ha : P a) (hb : P b) (e : xgcd E' a b = .ok (x, y, g)) :
    P g ∧ Verif.xgcd E (σ a) (σ b) = .ok (σ x, σ y, σ g) := by
  have key : ∀ a b x y g : β, P a → P b → xgcdOrdered E' a b = .ok (x, y, g) →
      P g ∧ xgcdOrdered E (σ a) (σ b) = .ok (σ x, σ y, σ g) := by
    intro a b x y g ha hb e
    unfold xgcdOrdered at e ⊢
    rw [h.abs b hb]
    split at e
    · next h0 =>
      simp only [Except.ok.injEq, Prod.mk.injEq] at e
      obtain ⟨rfl, rfl, rfl⟩ := e
      rw [if_pos h0, h.one.2, h.zero.2]
      exact ⟨ha, rfl⟩
    · next h0 =>
      rw [if_neg h0, ← h.one.2, ← h.zero.2]
      exact h.xgcdLoop _ _ _ _ _ _ _ _ _ _ ha hb h.one.1 h.zero.1 h.zero.1 h.one.1 e
  unfold Verif.xgcd at e ⊢
  rw [h.abs a ha, h.abs b hb]
  split at e
  · next h0 =>
    rw [if_pos h0]
    cases e1 : xgcdOrdered E' b a with
    | error x => simp [e1, bind, Except.bind] at e
    | ok r =>
      obtain ⟨r1, r2, r3⟩ := r
      simp only [e1, bind, Except.bind, Except.ok.injEq, Prod.mk.injEq] at e
      obtain ⟨rfl, rfl, rfl⟩ := e
      obtain ⟨h1, h2⟩ := key b a _ _ _ hb ha e1
      exact ⟨h1, by simp [h2, bind, Except.bind]⟩
  · next h0 =>
    rw [if_neg h0]
    exact key a b _ _ _ ha hb e

end

/-! ### Z/p -/

/-- **C119** (`divmod` in Z/p). For any modulus `p` and canonical `a`, `b`: `divmod(a, b)` returns the quotient and the remainder of the
stored ints, and raises `ZeroDivisionError` when `b` is 0. -/
theorem C119_divmod_modp (p : Nat) (a b : Int) (ha : 0 ≤ a ∧ a < p) (hb : 0 ≤ b ∧ b < p) :
    (b ≠ 0 → ∃ q r, Modp.divmod p a b = .ok (q, r) ∧ 0 ≤ q ∧ 0 ≤ r ∧ r < b ∧ a = q * b + r) ∧
    (b = 0 → Modp.divmod p a b = .error .zeroDivision) := by
  constructor
  · intro h0
    have hpos : 0 < b := by omega
    have h1 := Int.fmod_nonneg_of_pos a hpos
    have h2 := Int.fmod_lt_of_pos a hpos
    have h3 := Int.mul_fdiv_add_fmod a b
    have h4 : 0 ≤ a.fdiv b := Int.fdiv_nonneg ha.1 hb.1
    have h5 : a.fdiv b ≤ a := by nlinarith
    refine ⟨a.fdiv b, a.fmod b, ?_, h4, h1, h2, by linarith⟩
    simp only [Modp.divmod, pyDivmod, h0, if_false, bind, Except.bind]
    rw [Modp.mk_of_range p _ h4 (by omega), Modp.mk_of_range p _ h1 (by omega)]
  · rintro rfl
    simp [Modp.divmod, pyDivmod, bind, Except.bind]

theorem mk_sub (p : Nat) (a b : Int) : Modp.sub p (Modp.mk p a) (Modp.mk p b) = Modp.mk p (a - b) := by
  simp only [Modp.sub, Modp.mk, fmod_nat, Int.emod_sub_emod, Int.sub_emod_emod]

theorem mk_mul (p : Nat) (a b : Int) : Modp.mul p (Modp.mk p a) (Modp.mk p b) = Modp.mk p (a * b) := by
  simp only [Modp.mul, Modp.mk, fmod_nat, ← Int.mul_emod]

theorem simMod (p : Nat) : Sim (modOps p) intOps (Modp.mk p) (fun a => 0 ≤ a ∧ a < p) fun _ => True where
  reduced _ _ := trivial
  abs a h := by rw [Modp.mk_of_range p a h.1 h.2]; rfl
  zero := ⟨trivial, rfl⟩
  one := ⟨trivial, rfl⟩
  sub a b _ _ := ⟨trivial, mk_sub p a b⟩
  mul a b _ _ := ⟨trivial, mk_mul p a b⟩
  divmod a b ha hb h0 := by
    have hb0 : b ≠ 0 := by rintro rfl; simp [intOps] at h0
    have h1 := Int.fmod_nonneg_of_pos a (b := b) (by omega)
    have h2 := Int.fmod_lt_of_pos a (b := b) (by omega)
    refine ⟨a.fdiv b, a.fmod b, by simp [intOps, pyDivmod, hb0], trivial, ⟨h1, by omega⟩, ?_⟩
    rw [Modp.mk_of_range p a ha.1 ha.2, Modp.mk_of_range p b hb.1 hb.2]
    simp [modOps, Modp.divmod, pyDivmod, hb0, bind, Except.bind]

/-- **C119** (Z/p). On canonical elements, for any modulus, `gcd` returns the element whose int is the greatest common divisor of the
two ints, and `extended_euclidean_algorithm` returns elements `x`, `y` and this divisor `d` with `a x + b y = d` modulo `p`. -/
theorem C119_modp (p : Nat) (a b : Int) (ha : 0 ≤ a ∧ a < p) (hb : 0 ≤ b ∧ b < p) :
    gcd (modOps p) a b = .ok (Int.gcd a b) ∧
    ∃ x y, xgcd (modOps p) a b = .ok (x, y, (Int.gcd a b : Int)) ∧ (0 ≤ x ∧ x < p) ∧ (0 ≤ y ∧ y < p) ∧
      (a * x + b * y : Int) ≡ Int.gcd a b [ZMOD p] := by
  have hp : 0 < p := by omega
  have e1 := Modp.mk_of_range p a ha.1 ha.2
  have e2 := Modp.mk_of_range p b hb.1 hb.2
  constructor
  · obtain ⟨g, h1, h2⟩ := C04_gcd_int a b
    obtain ⟨h3, h4⟩ := (simMod p).gcd ha hb h1
    rw [e1, e2, Modp.mk_of_range p g h3.1 h3.2] at h4
    rw [h4]
    congr 1
    omega
  · obtain ⟨x, y, d, h1, h2, -, h3⟩ := C04_extended_euclid_int a b
    obtain ⟨h4, h5⟩ := (simMod p).xgcd ha hb h1
    rw [e1, e2, Modp.mk_of_range p d h4.1 h4.2] at h5
    rw [h3 ha.1 hb.1] at h2 h5
    refine ⟨_, _, h5, Modp.mk_range p hp x, Modp.mk_range p hp y, ?_⟩
    rw [← h2]
    simp only [Modp.mk, fmod_nat]
    exact ((Int.mod_modEq x p).mul_left a).add ((Int.mod_modEq y p).mul_left b)

/-- In Z/17: `gcd(6, 4)` is 2 = 6·1 + 4·16. This meets the hypotheses of `C119_divmod_modp`. -/
example : gcd (modOps 17) 6 4 = .ok 2 ∧ xgcd (modOps 17) 6 4 = .ok (1, 16, 2) ∧ xgcd (modOps 17) 4 6 = .ok (16, 1, 2) ∧
    Modp.divmod 17 15 4 = .ok (3, 3) := by decide

/-! ### Extension fields -/

section
variable {K : Type} [Field K] [DecidableEq K] (f : List K) [hf : FF.IsModulus f]

/-- The element of a polynomial (of the canonical form of the list). -/
def elemOf (g : List K) : FF.Fq f := FF.Fq.mk (ctor g) (canon_ctor g)

theorem elemOf_val (g : List K) : (elemOf f g).val = AdjoinRoot.mk _ (toPoly g) := by
  rw [elemOf, FF.Fq.mk_val, toPoly_ctor]

theorem elemOf_self (a : FF.Fq f) : elemOf f a.1 = a := FF.Fq.val_inj (elemOf_val f a.1)

theorem elemOf_raw {g : List K} (hg : Canon g) (hl : g.length < f.length) : (elemOf f g).1 = g :=
  congrArg Subtype.val (elemOf_self f ⟨g, hg, hl⟩)

theorem fqDivmod_eq (a b : FF.Fq f) (hb : b ≠ 0) : ∃ q r, divmod a.1 b.1 = .ok (q, r) ∧ Canon q ∧ Canon r ∧ r.length < b.1.length ∧
    toPoly a.1 = toPoly q * toPoly b.1 + toPoly r ∧ FF.fqDivmod f a.1 b.1 = .ok ((elemOf f q).1, (elemOf f r).1) := by
  have hne : b.1 ≠ [] := by
    intro h
    apply hb
    apply FF.Fq.val_inj
    rw [FF.Fq.val_zero, FF.Fq.val, h, toPoly_nil, map_zero]
  obtain ⟨q, r, h1, h2, h3, h4, h5⟩ := divmod_spec a.2.1 b.2.1 hne
  refine ⟨q, r, h1, h2, h3, h5, h4, ?_⟩
  have e : ∀ g, Canon g → FF.ofPoly f g = .ok (elemOf f g).1 := by
    intro g hg
    have h := (FF.mod_eq_red f hg).1
    rw [elemOf]
    show mod g f = .ok (FF.red f (ctor g))
    rw [ctor_of_canon hg]
    exact h
  simp only [FF.fqDivmod, h1, bind, Except.bind, e q h2, e r h3]

/-- **C119** (`divmod` in an extension field). `divmod(a, b)` for `b ≠ 0` returns elements `q`, `r` with `a = q b + r`, where `r` is
represented by a polynomial of smaller degree than the one of `b`; for `b = 0` it raises `IndexError`. -/
theorem C119_divmod_extension (a b : FF.Fq f) :
    (b ≠ 0 → ∃ q r : FF.Fq f, FF.fqDivmod f a.1 b.1 = .ok (q.1, r.1) ∧ a = q * b + r ∧ r.1.length < b.1.length) ∧
    (b = 0 → FF.fqDivmod f a.1 b.1 = .error .indexError) := by
  constructor
  · intro hb
    obtain ⟨q, r, h1, h2, h3, h4, h5, h6⟩ := fqDivmod_eq f a b hb
    refine ⟨_, _, h6, ?_, ?_⟩
    · apply FF.Fq.val_inj
      rw [FF.Fq.val_add, FF.Fq.val_mul, elemOf_val, elemOf_val, FF.Fq.val, FF.Fq.val, h5, map_add, map_mul]
    · rw [elemOf_raw f h3 (lt_trans h4 b.2.2)]
      exact h4
  · rintro rfl
    have h0 : toPoly (0 : FF.Fq f).1 = 0 := by
      show toPoly (ctor [0]) = 0
      rw [toPoly_ctor, toPoly_cons, toPoly_nil, map_zero, mul_zero, add_zero]
    have := (C10_divmod_zero a.1 (0 : FF.Fq f).1 (0 : FF.Fq f).2.1 h0).1
    simp only [FF.fqDivmod, this, bind, Except.bind]

theorem simFq : Sim (fqOps f) ops (elemOf f) (fun g => Canon g ∧ g.length < f.length) Canon where
  reduced _ h := h.1
  abs g h := by
    show pabs (elemOf f g).1 = _
    rw [elemOf_raw f h.1 h.2]
    rfl
  zero := ⟨Canon.nil, FF.Fq.val_inj (by rw [elemOf_val]; exact (map_zero _).trans FF.Fq.val_zero.symm)⟩
  one := ⟨polyLaw.one_mem, FF.Fq.val_inj (by
    rw [elemOf_val]
    exact ((congrArg _ polyLaw.one_val).trans (map_one _)).trans FF.Fq.val_one.symm)⟩
  sub a b _ _ := ⟨canon_sub a b, FF.Fq.val_inj (by
    show (elemOf f a - elemOf f b).val = (elemOf f (sub a b)).val
    rw [FF.Fq.val_sub, elemOf_val, elemOf_val, elemOf_val, toPoly_sub, map_sub])⟩
  mul a b _ _ := ⟨canon_mul a b, FF.Fq.val_inj (by
    show (elemOf f a * elemOf f b).val = (elemOf f (mul a b)).val
    rw [FF.Fq.val_mul, elemOf_val, elemOf_val, elemOf_val, toPoly_mul, map_mul])⟩
  divmod a b ha hb h0 := by
    have ea := elemOf_raw f ha.1 ha.2
    have eb := elemOf_raw f hb.1 hb.2
    have hb0 : elemOf f b ≠ 0 := by
      intro h
      have h1 : b = ctor [0] := by rw [← eb, h]; rfl
      have h2 : b = [] := (toPoly_eq_zero hb.1).1 (by
        rw [h1, toPoly_ctor, toPoly_cons, toPoly_nil, map_zero, mul_zero, add_zero])
      rw [h2] at h0
      simp [ops, pabs] at h0
    obtain ⟨q, r, h1, h2, h3, h4, h5, h6⟩ := fqDivmod_eq f (elemOf f a) (elemOf f b) hb0
    rw [ea, eb] at h1
    rw [eb] at h4
    refine ⟨q, r, h1, h2, ⟨h3, lt_trans h4 hb.2⟩, ?_⟩
    simp only [fqOps, h6, bind, Except.bind]
    exact congrArg Except.ok (Prod.ext (elemOf_self f _) (elemOf_self f _))

/-- **C119** (extension fields). `gcd` returns the element represented by a greatest common divisor of the polynomials that represent
the arguments; `extended_euclidean_algorithm` returns elements `x`, `y` and such a divisor `d` with `a x + b y = d`. -/
theorem C119_extension (a b : FF.Fq f) :
    (∃ g : FF.Fq f, gcd (fqOps f) a b = .ok g ∧ ∀ e : K[X], e ∣ toPoly g.1 ↔ e ∣ toPoly a.1 ∧ e ∣ toPoly b.1) ∧
    ∃ x y d : FF.Fq f, xgcd (fqOps f) a b = .ok (x, y, d) ∧ a * x + b * y = d ∧
      ∀ e : K[X], e ∣ toPoly d.1 ↔ e ∣ toPoly a.1 ∧ e ∣ toPoly b.1 := by
  have ea := elemOf_self f a
  have eb := elemOf_self f b
  constructor
  · obtain ⟨g, h1, -, h3⟩ := gcd_spec polyLaw a.1 b.1 a.2.1 b.2.1
    obtain ⟨h4, h5⟩ := (simFq f).gcd a.2 b.2 h1
    rw [ea, eb] at h5
    exact ⟨_, h5, fun e => by rw [elemOf_raw f h4.1 h4.2]; exact h3 e⟩
  · obtain ⟨x, y, d, h1, -, -, -, h2, h3⟩ := xgcd_spec polyLaw a.1 b.1 a.2.1 b.2.1
    obtain ⟨h4, h5⟩ := (simFq f).xgcd a.2 b.2 h1
    rw [ea, eb] at h5
    refine ⟨_, _, _, h5, ?_, fun e => by rw [elemOf_raw f h4.1 h4.2]; exact h3 e⟩
    apply FF.Fq.val_inj
    rw [FF.Fq.val_add, FF.Fq.val_mul, FF.Fq.val_mul, elemOf_val, elemOf_val, elemOf_val, ← h2, map_add, map_mul, map_mul]
    rfl

end

/-- In `Z/2[x]/(x^3 + x + 1)`: `gcd(x^2 + 1, x^2 + x)` is `x + 1`, and so is `(x^2 + 1) * 1 + (x^2 + x) * 1`. -/
example : (gcd (fqOps ([1, 1, 0, 1] : List (Zp 2))) (elemOf _ [1, 0, 1]) (elemOf _ [0, 1, 1])).map (·.1) = .ok [1, 1] ∧
    (xgcd (fqOps ([1, 1, 0, 1] : List (Zp 2))) (elemOf _ [1, 0, 1]) (elemOf _ [0, 1, 1])).map (fun r => (r.1.1, r.2.1.1, r.2.2.1)) =
      .ok ([1], [1], [1, 1]) :=
  ⟨by rfl, by rfl⟩

end Verif.Props
