import Verif.Spec.FloatingPoint
import Verif.Proofs.BinaryField
/-! # Floating-point values over a binary field -/

namespace Verif.Float
open Poly FF Spec
open scoped Polynomial
open Polynomial (C X)

variable {K : Type _} [Field K] [DecidableEq K]

section
variable (f : List K) [hf : IsModulus f]

theorem const_eq (c : K) : const f c = .ok (Fq.ofK c : Fq f).1 := by
  show mod (ctor [c]) f = _
  have hc := Fq.const_mem (f := f) c
  rw [(mod_eq_red f hc.1).1, red_small f hc.1 hc.2]; rfl

theorem const_zero : const f (0 : K) = .ok (0 : Fq f).1 := const_eq f 0
theorem const_one : const f (1 : K) = .ok (1 : Fq f).1 := const_eq f 1

/-- The element `field(num_to_binary_list(n))`. -/
def num (n : Int) : Fq f := Fq.mk (ctor ((numToBinaryList n).map fun d : Nat => (d : K))) (canon_ctor _)

theorem ofNum_eq (n : Int) : ofNum f n = .ok (num f n).1 := (mod_eq_red f (canon_ctor _)).1

theorem truediv_eq (a b : Fq f) (hb : b ≠ 0) : fqTruediv f a.1 b.1 = .ok (a / b).1 := by
  have h := (Fq.fqInverse_eq b hb).1
  simp only [fqTruediv, h, bind, Except.bind]
  rw [Fq.fqMul_eq, div_eq_mul_inv]

/-- A value whose components are elements of the field. -/
def mkFp (v p : Fq f) (z s : Nat) : Fp K := ⟨v.1, p.1, z, s⟩

theorem mul_eq (m : Nat) (v p v' p' : Fq f) (z s z' s' : Nat) :
    mul f m (mkFp f v p z s) (mkFp f v' p' z' s') =
      .ok (if z ||| z' = 1 then mkFp f 0 0 (z ||| z') (s ^^^ s')
        else mkFp f (v * v') (p + p' + num f (degree v.1 + degree v.1 - (m - 1))) (z ||| z') (s ^^^ s')) := by
  unfold mul mkFp
  by_cases h : z ||| z' = 1
  · simp only [h, if_true, const_zero, bind, Except.bind]
  · simp only [h, if_false, bind, Except.bind, Fq.fqMul_eq, Fq.fqAdd_eq, ofNum_eq]

end

/-! ### Binary digits -/

theorem ntbLoop_val : ∀ fuel n : Nat, n ≤ fuel → bitsVal ((ntbLoop fuel n).map fun d => decide (d = 1)) = n ∧
    ∀ d ∈ ntbLoop fuel n, d < 2
  | 0, n, h => by
    have : n = 0 := by omega
    subst this; simp [ntbLoop, bitsVal]
  | fuel + 1, n, h => by
    unfold ntbLoop
    by_cases h0 : n > 0
    · rw [if_pos h0]
      obtain ⟨h1, h2⟩ := ntbLoop_val fuel (n / 2) (by omega)
      refine ⟨?_, fun d hd => ?_⟩
      · rw [List.map_cons, bitsVal, h1]
        rcases Nat.mod_two_eq_zero_or_one n with h | h <;> simp [h] <;> omega
      · rcases List.mem_cons.mp hd with h | h
        · omega
        · exact h2 d h
    · rw [if_neg h0]
      have : n = 0 := by omega
      subst this; simp [bitsVal]

/-- Canonical lists of bits are determined by their value. -/
theorem bitsVal_inj : ∀ l m : List Bool, (∀ b, l.getLast? = some b → b = true) → (∀ b, m.getLast? = some b → b = true) →
    bitsVal l = bitsVal m → l = m
  | [], [], _, _, _ => rfl
  | [], b :: bs, _, hm, h => by
    have hl : (b :: bs).getLast? = some true := by
      have := hm ((b :: bs).getLast (by simp)) (List.getLast?_eq_some_getLast (by simp))
      rw [List.getLast?_eq_some_getLast (by simp), this]
    have := bitsVal_le_of_getLast hl
    rw [← h] at this
    have h2 := Nat.two_pow_pos ((b :: bs).length - 1)
    simp [bitsVal] at this
  | b :: bs, [], hl, _, h => by
    have hl : (b :: bs).getLast? = some true := by
      have := hl ((b :: bs).getLast (by simp)) (List.getLast?_eq_some_getLast (by simp))
      rw [List.getLast?_eq_some_getLast (by simp), this]
    have := bitsVal_le_of_getLast hl
    rw [h] at this
    have h2 := Nat.two_pow_pos ((b :: bs).length - 1)
    simp [bitsVal] at this
  | b :: bs, c :: cs, hl, hm, h => by
    have hbc : b = c := by
      simp only [bitsVal] at h
      cases b <;> cases c <;> simp at h ⊢ <;> omega
    subst hbc
    have : bitsVal bs = bitsVal cs := by simp only [bitsVal] at h; omega
    rw [bitsVal_inj bs cs ?_ ?_ this]
    · intro d hd; exact hl d (by rw [List.getLast?_cons, hd]; rfl)
    · intro d hd; exact hm d (by rw [List.getLast?_cons, hd]; rfl)

section two
variable (h2 : ∀ c : K, c = 0 ∨ c = 1)
include h2

theorem enc_inj {a b : List K} (ha : Canon a) (hb : Canon b) (h : bitsVal (enc a) = bitsVal (enc b)) : a = b := by
  have key : ∀ {a : List K}, Canon a → ∀ c, (enc a).getLast? = some c → c = true := by
    intro a ha c hc
    by_cases h0 : a = []
    · subst h0; simp at hc
    · rw [enc_last h2 ha h0] at hc; injection hc with hc; exact hc.symm
  have := bitsVal_inj _ _ (key ha) (key hb) h
  have inj : Function.Injective (bit : K → Bool) := fun x y hxy => (bit_inj h2 x y).mp hxy
  exact (List.map_injective_iff.mpr inj) this

variable (f : List K) [hf : IsModulus f]

theorem num_enc (n : Int) (hn : n.toNat < 2 ^ (f.length - 1)) : bitsVal (enc (num f n).1) = n.toNat := by
  obtain ⟨hv, hd⟩ := ntbLoop_val n.toNat n.toNat le_rfl
  have hv' : bitsVal (enc (ctor ((numToBinaryList n).map fun d : Nat => (d : K)))) = n.toNat := by
    rw [enc_ctor, enc, List.map_map]
    refine (congrArg bitsVal (List.map_congr_left ?_)).trans hv
    intro d hdm
    have := hd d hdm
    have : d = 0 ∨ d = 1 := by omega
    rcases this with rfl | rfl <;> simp [bit]
  have hc := canon_ctor ((numToBinaryList n).map fun d : Nat => (d : K))
  have hl : (ctor ((numToBinaryList n).map fun d : Nat => (d : K))).length < f.length := by
    by_cases h0 : ctor ((numToBinaryList n).map fun d : Nat => (d : K)) = []
    · rw [h0]; have := IsModulus.two_le f; simp; omega
    · have := bitsVal_le_of_getLast (enc_last h2 hc h0)
      rw [hv'] at this
      simp only [enc, List.length_map] at this
      have h3 := lt_of_le_of_lt this hn
      rw [Nat.pow_lt_pow_iff_right (by omega)] at h3
      have := IsModulus.two_le f
      omega
  show bitsVal (enc (red f _)) = _
  rw [red_small f hc hl, hv']

theorem num_inj (n k : Int) (hn : n.toNat < 2 ^ (f.length - 1)) (hk : k.toNat < 2 ^ (f.length - 1)) :
    num f n = num f k ↔ n.toNat = k.toNat := by
  constructor
  · intro h; rw [← num_enc h2 f n hn, ← num_enc h2 f k hk, h]
  · intro h
    apply Subtype.ext
    apply enc_inj h2 (num f n).2.1 (num f k).2.1
    rw [num_enc h2 f n hn, num_enc h2 f k hk, h]

theorem LT_eq (a b : Fq f) : fqLT f a.1 b.1 = .ok (if bitsVal (enc a.1) ≤ bitsVal (enc b.1) then 1 else 0) := by
  obtain ⟨r, h1, h3, h4⟩ := fqLT_spec h2 f a.1 b.1 a.2.1 b.2.1 a.2.2 b.2.2
  rw [h1]
  congr 1
  split
  · exact h4.mpr ‹_›
  · rcases h3 with h | h
    · exact h
    · exact absurd (h4.mp h) ‹_›

end two

/-- The element `two_pow` returns. -/
noncomputable def tp (f : List K) [IsModulus f] (a : Fq f) : Fq f := (twoPow_spec f a.1).choose
theorem tp_eq (f : List K) [IsModulus f] (a : Fq f) : twoPow f a.1 = .ok (tp f a).1 := (twoPow_spec f a.1).choose_spec.1
theorem tp_val (f : List K) [IsModulus f] (a : Fq f) : (tp f a).val = AdjoinRoot.root (toPoly f) ^ twoPowExp 0 (enc a.1) :=
  (twoPow_spec f a.1).choose_spec.2

/-- What `__add__` computes, for two values whose `z` is not 1, the first of them the one with the smaller exponent (or
the same exponent and the smaller significand). -/
noncomputable def addSorted (f : List K) [IsModulus f] (m : Nat) (v p v' p' : Fq f) (s' : Nat) : Fp K :=
  if bitsVal (enc (p' - p).1) ≤ m then
    mkFp f (v' * tp f (p' - p) + v) p (if v' * tp f (p' - p) + v = 0 then 1 else 0) s'
  else mkFp f v' p' (if v' = 0 then 1 else 0) s'

theorem add_eq (h2 : ∀ c : K, c = 0 ∨ c = 1) (f : List K) [hf : IsModulus f] (m : Nat) (hm : m < 2 ^ (f.length - 1))
    (v p v' p' : Fq f) (z s z' s' : Nat)
    (hz : z ≠ 1) (hz' : z' ≠ 1) :
    add f m (mkFp f v p z s) (mkFp f v' p' z' s') = .ok (
      if bitsVal (enc p.1) < bitsVal (enc p'.1) ∨ (p = p' ∧ bitsVal (enc v.1) ≤ bitsVal (enc v'.1))
      then addSorted f m v p v' p' s' else addSorted f m v' p' v p s) := by
  have hnum := num_enc h2 f m (by simpa using hm)
  have hpeq : fqEq p.1 p'.1 = true ↔ p = p' := Fq.fqEq_iff p p'
  have hnum : bitsVal (enc (num f m).1) = m := by simpa using hnum
  have fin : ∀ (a b d e : Fq f) (sc : Nat),
      (do
        let delta ← fqSub f e.1 b.1
        let l ← ofNum f m
        let c ← fqLT f delta l
        let (vc, pc) ← if c = 0 then .ok (d.1, e.1) else do
          let t ← twoPow f delta
          let u ← fqMul f d.1 t
          let w ← fqAdd f u a.1
          .ok (w, b.1)
        let zero ← const f 0
        .ok (⟨vc, pc, if fqEq vc zero then 1 else 0, sc⟩ : Fp K) : Py (Fp K)) = .ok (addSorted f m a b d e sc) := by
    intro a b d e sc
    unfold addSorted
    simp only [Fq.fqSub_eq, ofNum_eq, bind, Except.bind, LT_eq h2 f, hnum]
    by_cases h : bitsVal (enc (e - b).1) ≤ m
    · simp only [h, if_true, tp_eq, Fq.fqMul_eq, Fq.fqAdd_eq, const_zero, Fq.fqEq_iff, Nat.one_ne_zero, if_false]
      rfl
    · simp only [h, if_false, if_true, const_zero, Fq.fqEq_iff]
      rfl
  unfold add
  simp only [mkFp, hz, hz', if_false]
  rw [LT_eq h2 f, LT_eq h2 f]
  by_cases hp : p = p'
  · subst hp
    have e1 : fqEq p.1 p.1 = true := hpeq.mpr rfl
    by_cases hv : bitsVal (enc v.1) ≤ bitsVal (enc v'.1)
    · have := fin v p v' p s'
      simpa [e1, hv, bind, Except.bind] using this
    · have := fin v' p v p s
      simpa [e1, hv, bind, Except.bind] using this
  · have e1 : fqEq p.1 p'.1 = false := by
      rw [Bool.eq_false_iff]; exact fun h => hp (hpeq.mp h)
    have hne : bitsVal (enc p.1) ≠ bitsVal (enc p'.1) := fun h => hp (Subtype.ext (enc_inj h2 p.2.1 p'.2.1 h))
    by_cases hb : bitsVal (enc p.1) ≤ bitsVal (enc p'.1)
    · have hlt : bitsVal (enc p.1) < bitsVal (enc p'.1) := by omega
      have := fin v p v' p' s'
      simpa [e1, hb, hlt, hp, bind, Except.bind] using this
    · have hlt : ¬ bitsVal (enc p.1) < bitsVal (enc p'.1) := by omega
      have := fin v' p' v p s
      simpa [e1, hb, hlt, hp, bind, Except.bind] using this

theorem truediv_ok (f : List K) [hf : IsModulus f] (m : Nat) (v p v' p' : Fq f) (z s z' s' : Nat) (hz : z' ≠ 1)
    (hv : v' ≠ 0) :
    truediv f m (mkFp f v p z s) (mkFp f v' p' z' s') =
      .ok (if z ||| z' = 1 then mkFp f 0 0 (z ||| z') (s ^^^ s')
        else mkFp f (v / v') (p - p' + num f (degree v.1 + degree (v'⁻¹).1 - (m - 1))) (z ||| z') (s ^^^ s')) := by
  have hv' : fqEq v'.1 (0 : Fq f).1 = false := by
    rw [Bool.eq_false_iff]; exact fun h => hv ((Fq.fqEq_iff v' 0).mp h)
  unfold truediv mkFp
  by_cases h : z ||| z' = 1
  · simp [h, hz, const_zero, bind, Except.bind, hv']
  · simp only [h, hz, const_zero, bind, Except.bind, hv', if_false, truediv_eq f v v' hv, Fq.fqSub_eq,
      (Fq.fqInverse_eq v' hv).1, ofNum_eq, Fq.fqAdd_eq]
    simp

end Verif.Float

namespace Verif.Float
open Poly FF Spec
open scoped Polynomial
open Polynomial (C X)

variable {K : Type _} [Field K] [DecidableEq K]

/-! ### Exponentiation -/

/-- The exponent after `n` multiplications by `(v, p)` starting from `1 · 2^0`. -/
noncomputable def powExp (f : List K) [IsModulus f] (m : Nat) (v p : Fq f) : Nat → Fq f
  | 0 => 0
  | n + 1 => powExp f m v p n + p + num f (degree (v ^ n).1 + degree (v ^ n).1 - (m - 1))

/-- The value after `n` multiplications by `x = (v, p, z, s)`, starting from `1 · 2^0`. -/
noncomputable def powVal (f : List K) [IsModulus f] (m : Nat) (v p : Fq f) (z s : Nat) (n : Nat) : Fp K :=
  if n = 0 then mkFp f 1 0 0 0
  else if z = 1 then mkFp f 0 0 1 (if n % 2 = 1 then s else 0)
  else mkFp f (v ^ n) (powExp f m v p n) z (if n % 2 = 1 then s else 0)

theorem powVal_step (f : List K) [IsModulus f] (m : Nat) (v p : Fq f) (z s : Nat) (n : Nat) :
    mul f m (powVal f m v p z s n) (mkFp f v p z s) = .ok (powVal f m v p z s (n + 1)) := by
  have hs : (if n % 2 = 1 then s else 0) ^^^ s = if (n + 1) % 2 = 1 then s else 0 := by
    rcases Nat.mod_two_eq_zero_or_one n with h | h
    · have : (n + 1) % 2 = 1 := by omega
      simp [h, this]
    · have : (n + 1) % 2 = 0 := by omega
      simp [h, this]
  unfold powVal
  rw [if_neg (Nat.succ_ne_zero n)]
  by_cases h0 : n = 0
  · subst h0
    rw [if_pos rfl, mul_eq]
    simp only [Nat.zero_or, Nat.zero_xor, Nat.zero_add, if_true, one_mul, pow_one, powExp, pow_zero]
    by_cases hz : z = 1 <;> simp [hz]
  · rw [if_neg h0]
    by_cases hz : z = 1
    · rw [if_pos hz, if_pos hz, mul_eq, hz, hs]; simp
    · rw [if_neg hz, if_neg hz, mul_eq, hs, Nat.or_self, if_neg hz, ← pow_succ, powExp]

theorem powLoop_eq (h2 : ∀ c : K, c = 0 ∨ c = 1) (f : List K) [IsModulus f] (m : Nat) (v p : Fq f) (z s : Nat) (fixed : Fq f) :
    ∀ (fuel k : Nat) (counter : List K), Canon counter → bitsVal (enc counter) = k → k ≤ bitsVal (enc fixed.1) →
      bitsVal (enc fixed.1) < fuel + k →
      powLoop f m (mkFp f v p z s) fixed.1 fuel counter (powVal f m v p z s k) =
        .ok (powVal f m v p z s (bitsVal (enc fixed.1)))
  | 0, k, counter, _, _, h3, h4 => by omega
  | fuel + 1, k, counter, hc, hk, h3, h4 => by
    unfold powLoop
    have hbound : bitsVal (enc fixed.1) < 2 ^ (f.length - 1) := by
      refine lt_of_lt_of_le (bitsVal_lt _) (Nat.pow_le_pow_right (by norm_num) ?_)
      have := fixed.2.2
      simp only [enc, List.length_map]; omega
    by_cases he : k = bitsVal (enc fixed.1)
    · have : counter = fixed.1 := enc_inj h2 hc fixed.2.1 (by omega)
      rw [this]
      have e : fqNe fixed.1 fixed.1 = false := by
        rw [fqNe, (Fq.fqEq_iff fixed fixed).mpr rfl]; rfl
      rw [e, he]; simp
    · have hne : fqNe counter fixed.1 = true := by
        rw [fqNe, Bool.not_eq_true', Bool.eq_false_iff]
        intro h
        have : counter = fixed.1 := by
          have := Poly.eq_iff.mp h
          exact this
        exact he (by rw [← hk, this])
      have h1 : bitsVal (enc (1 : Fq f).1) = 1 := by
        have : (1 : Fq f).1 = [1] := by
          show ctor [(1 : K)] = [1]
          exact ctor_of_canon (by intro a h; simp at h; subst h; exact one_ne_zero)
        rw [this]; simp [bit, bitsVal]
      obtain ⟨r, r1, r2, r3⟩ := rba_small h2 f counter (1 : Fq f).1 (by rw [h1]; omega)
      rw [if_pos hne]
      simp only [powVal_step, const_one, bind, Except.bind, r1]
      exact powLoop_eq h2 f m v p z s fixed fuel (k + 1) r r2 (by rw [r3, hk, h1]) (by omega) (by omega)

/-! ### Fixed-point values -/

/-- The element `Float_to_Fix` returns. -/
noncomputable def fix (f : List K) [IsModulus f] (v p : Fq f) (z : Nat) : Fq f := if z = 1 then 0 else v * tp f p

theorem floatToFix_eq (f : List K) [IsModulus f] (v p : Fq f) (z s : Nat) :
    floatToFix f (mkFp f v p z s) = .ok ((fix f v p z).1, if z = 1 then 0 else s) := by
  unfold floatToFix mkFp fix
  by_cases h : z = 1
  · simp only [h, if_true, const_zero, bind, Except.bind]
  · simp only [h, if_false, tp_eq, Fq.fqMul_eq, bind, Except.bind]

theorem twoPowExp_sum : ∀ (a : List K) (j N : Nat), a.length ≤ N → twoPowExp j (enc a) =
    ∑ i ∈ Finset.range N, if a.getD i 0 = 1 then j + i + 1 else 0 := by
  intro a
  induction a with
  | nil => intro j N _; symm; apply Finset.sum_eq_zero; intro i _; simp
  | cons c cs ih =>
    intro j N hN
    obtain ⟨N, rfl⟩ : ∃ n, N = n + 1 := ⟨N - 1, by simp at hN; omega⟩
    rw [Finset.sum_range_succ']
    simp only [enc, List.map_cons, twoPowExp, List.getD_cons_succ, List.getD_cons_zero, Nat.add_zero]
    have := ih (j + 1) N (by simpa using hN)
    simp only [enc] at this
    rw [this, Nat.add_comm]
    congr 1
    · apply Finset.sum_congr rfl; intro i _; congr 1; omega
    · simp [bit]

theorem bitsVal_sum : ∀ (a : List K) (N : Nat), a.length ≤ N → bitsVal (enc a) =
    ∑ i ∈ Finset.range N, if a.getD i 0 = 1 then 2 ^ i else 0 := by
  intro a
  induction a with
  | nil => intro N _; symm; apply Finset.sum_eq_zero; intro i _; simp
  | cons c cs ih =>
    intro N hN
    obtain ⟨N, rfl⟩ : ∃ n, N = n + 1 := ⟨N - 1, by simp at hN; omega⟩
    rw [Finset.sum_range_succ']
    simp only [enc, List.map_cons, bitsVal, List.getD_cons_succ, List.getD_cons_zero]
    have := ih N (by simpa using hN)
    simp only [enc] at this
    rw [this, Nat.add_comm, Finset.mul_sum]
    congr 1
    · apply Finset.sum_congr rfl; intro i _; split <;> ring
    · by_cases h : c = 1 <;> simp [bit, h]

theorem sub_coeff (f : List K) [IsModulus f] (a b : Fq f) (i : Nat) :
    (a - b).1.getD i 0 = a.1.getD i 0 - b.1.getD i 0 := by
  have hc := canon_sub a.1 b.1
  have hl : (Poly.sub a.1 b.1).length < f.length := by
    by_contra h
    have h0 : toPoly (Poly.sub a.1 b.1) ≠ 0 := by
      intro h0
      have : Poly.sub a.1 b.1 = [] := toPoly_inj hc (by intro a h; simp at h) (by rw [h0, toPoly_nil])
      rw [this] at h; have := IsModulus.two_le f;  simp only [List.length_nil] at h; omega
    have h1 : (toPoly (Poly.sub a.1 b.1)).degree < (toPoly f).degree := by
      rw [toPoly_sub]
      exact lt_of_le_of_lt (Polynomial.degree_sub_le _ _) (max_lt (degree_lt_of_length_lt a.2.1 (IsModulus.canon) a.2.2)
        (degree_lt_of_length_lt b.2.1 (IsModulus.canon) b.2.2))
    have h2 := Polynomial.natDegree_lt_natDegree h0 h1
    rw [natDegree_toPoly hc, natDegree_toPoly (IsModulus.canon (f := f))] at h2
    omega
  have e : (a - b).1 = Poly.sub a.1 b.1 := by
    show red f (Poly.sub a.1 b.1) = _
    exact red_small f hc hl
  rw [e, ← coeff_toPoly, ← coeff_toPoly, ← coeff_toPoly, toPoly_sub, Polynomial.coeff_sub]

theorem nested_sub (h2 : ∀ c : K, c = 0 ∨ c = 1) (f : List K) [IsModulus f] (a b : Fq f) (h : Nested a.1 b.1) :
    twoPowExp 0 (enc (b - a).1) + twoPowExp 0 (enc a.1) = twoPowExp 0 (enc b.1) ∧
    bitsVal (enc (b - a).1) + bitsVal (enc a.1) = bitsVal (enc b.1) := by
  have key : ∀ (g : Nat → Nat) (i : Nat), (if (b - a).1.getD i 0 = 1 then g i else 0) +
      (if a.1.getD i 0 = 1 then g i else 0) = if b.1.getD i 0 = 1 then g i else 0 := by
    intro g i
    rw [sub_coeff]
    rcases h2 (a.1.getD i 0) with ha | ha
    · rw [ha, sub_zero, if_neg zero_ne_one, add_zero]
    · rw [ha, h i ha, sub_self, if_neg zero_ne_one, zero_add]
  constructor
  · rw [twoPowExp_sum _ 0 f.length (b - a).2.2.le, twoPowExp_sum _ 0 f.length a.2.2.le, twoPowExp_sum _ 0 f.length b.2.2.le,
      ← Finset.sum_add_distrib]
    exact Finset.sum_congr rfl fun i _ => key (fun i => 0 + i + 1) i
  · rw [bitsVal_sum _ f.length (b - a).2.2.le, bitsVal_sum _ f.length a.2.2.le, bitsVal_sum _ f.length b.2.2.le,
      ← Finset.sum_add_distrib]
    exact Finset.sum_congr rfl fun i _ => key _ i

theorem tp_nested (h2 : ∀ c : K, c = 0 ∨ c = 1) (f : List K) [IsModulus f] (a b : Fq f) (h : Nested a.1 b.1) :
    tp f (b - a) * tp f a = tp f b := by
  apply Fq.val_inj
  rw [Fq.val_mul, tp_val, tp_val, tp_val, ← pow_add, (nested_sub h2 f a b h).1]

theorem sub_eq_add (h2 : ∀ c : K, c = 0 ∨ c = 1) (f : List K) [IsModulus f] (a b : Fq f) : a - b = a + b := by
  have h : (1 : Fq f) + 1 = 0 := by
    apply Fq.val_inj
    rw [Fq.val_add, Fq.val_one, Fq.val_zero, ← map_one (AdjoinRoot.of (toPoly f)), ← map_add, char_two h2, map_zero]
  have : b + b = 0 := by
    calc b + b = b * (1 + 1) := by ring
      _ = 0 := by rw [h, mul_zero]
  calc a - b = a - b + (b + b) := by rw [this, add_zero]
    _ = a + b := by ring

end Verif.Float
