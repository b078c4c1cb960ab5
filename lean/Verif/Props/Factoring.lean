import Verif.Proofs.Factoring
import Verif.Proofs.ColoringZK
import Verif.Props.BbsModulus
import Mathlib.Data.Int.Sqrt
import Mathlib.NumberTheory.LucasLehmer
/-!
# C154: finding the secret of a commitment is as hard as factoring the modulus
-/

namespace Verif.Props
open Spec Bbs Commit

/-- **C154.** Extracting square roots factors (Rabin): let `inv` be any function, meant to undo the one-way function for a modulus that
is the product of two different primes.  Of the numbers `x` on whose square `inv` finds a root, exactly half give a proper factor of the
modulus as the greatest common divisor of the modulus and `x - inv (f x)`. -/
theorem C154_square_roots (p q : Nat) (hp : p.Prime) (hq : q.Prime) (hq2 : q ≠ 2) (hne : p ≠ q) (inv : Int → Int) :
    2 * ((coprimes (p * q)).filter fun x => bbs (p * q : Nat) (inv (bbs (p * q : Nat) x)) = bbs (p * q : Nat) x ∧
        Splits (p * q) (Int.gcd (x - inv (bbs (p * q : Nat) x)) (p * q : Nat))).card =
      ((coprimes (p * q)).filter fun x => bbs (p * q : Nat) (inv (bbs (p * q : Nat) x)) = bbs (p * q : Nat) x).card :=
  rabin hp hq hq2 hne inv

/-- This meets the hypotheses of `C154_square_roots`: an inverter for 77 that always finds a root, so that 30 of the 60 draws factor. -/
example : Nat.Prime 7 ∧ Nat.Prime 11 ∧ (11 : Nat) ≠ 2 ∧ (7 : Nat) ≠ 11 ∧
    ((coprimes 77).filter fun x => bbs 77 (((List.range 77).find? fun y : Nat => bbs 77 y = bbs 77 x).getD 0 : Nat) = bbs 77 x ∧
      Splits 77 (Int.gcd (x - (((List.range 77).find? fun y : Nat => bbs 77 y = bbs 77 x).getD 0 : Nat)) 77)).card = 30 := by
  refine ⟨by norm_num, by norm_num, by norm_num, by norm_num, by decide +kernel⟩

/-- **C154**, for secrets drawn uniformly: let `A` be any function, meant to find the secret behind a commitment to `bit`.  There are at
most twice as many draws whose secret it finds as there are draws `x` for which the greatest common divisor of the modulus and
`x - A (f x, 0)` or `x - A (f x, 1)` is a proper factor.  The draws are those prime to the modulus; the code draws `security_parameter`
random bits instead, see `C154_root_refuted`. -/
theorem C154_secret_partial (p q : Nat) (hp : p.Prime) (hq : q.Prime) (hp3 : p % 4 = 3) (hq3 : q % 4 = 3) (hne : p ≠ q)
    (pred : Int → Nat) (hpred : ∀ s, pred s ≤ 1) (A : Int × Nat → Int) (bit : Nat) (hbit : bit ≤ 1) :
    ((coprimes (p * q)).filter fun r =>
        A (commitBit (bbs (p * q : Nat)) pred (secretOf (bbs (p * q : Nat)) r) bit) = secretOf (bbs (p * q : Nat)) r).card ≤
      2 * ((coprimes (p * q)).filter fun x =>
        Splits (p * q) (Int.gcd (x - A (bbs (p * q : Nat) x, 0)) (p * q : Nat)) ∨
        Splits (p * q) (Int.gcd (x - A (bbs (p * q : Nat) x, 1)) (p * q : Nat))).card := by
  refine (secret_factors hp hq hp3 hq3 hne pred A bit).trans (Nat.mul_le_mul_left _ (Finset.card_le_card ?_))
  intro x hx
  obtain ⟨hx, y, -, hs⟩ := Finset.mem_filter.mp hx
  refine Finset.mem_filter.mpr ⟨hx, ?_⟩
  have hlt : pred (bbs (p * q : Nat) y) ^^^ bit < 2 ^ 1 :=
    Nat.xor_lt_two_pow (by have := hpred (bbs (p * q : Nat) y); omega) (by omega)
  have : pred (bbs (p * q : Nat) y) ^^^ bit = 0 ∨ pred (bbs (p * q : Nat) y) ^^^ bit = 1 := by omega
  rcases this with h | h
  · rw [h] at hs
    exact Or.inl hs
  · rw [h] at hs
    exact Or.inr hs

/-- This meets the hypotheses of `C154_secret_partial`. -/
example : (Nat.Prime 7 ∧ Nat.Prime 11 ∧ 7 % 4 = 3 ∧ 11 % 4 = 3 ∧ (7 : Nat) ≠ 11) ∧ ∀ s : Int, parityNat s.toNat ≤ 1 :=
  ⟨by norm_num, fun _ => by unfold parityNat; omega⟩

/-- **C154 is false** of the draws of the code when the modulus has at least four times as many bits as the draws: the first component
of a commitment is then the square of the secret, without any reduction, so that its integer square root is the secret and anybody can
open the commitment. -/
theorem C154_root_refuted (k M : Nat) (hM : 2 ^ (4 * k) ≤ M) (r : Int) (hr : 0 ≤ r ∧ r < 2 ^ k) (pred : Int → Nat) (bit : Nat) :
    Int.sqrt (commitBit (bbs M) pred (secretOf (bbs M) r) bit).1 = secretOf (bbs M) r ∧
      verifyBit (bbs M) pred (Int.sqrt (commitBit (bbs M) pred (secretOf (bbs M) r) bit).1)
        (commitBit (bbs M) pred (secretOf (bbs M) r) bit) = true ∧
      decodeBit pred (Int.sqrt (commitBit (bbs M) pred (secretOf (bbs M) r) bit).1)
        (commitBit (bbs M) pred (secretOf (bbs M) r) bit) = bit := by
  have h4 : r ^ 4 < M := by
    calc r ^ 4 < (2 ^ k) ^ 4 := pow_lt_pow_left₀ hr.2 hr.1 (by norm_num)
      _ = ((2 ^ (4 * k) : Nat) : Int) := by push_cast; rw [← pow_mul, Nat.mul_comm]
      _ ≤ M := by exact_mod_cast hM
  have h2 : r ^ 2 < M := by
    rcases hr.1.eq_or_lt with h | h
    · rw [← h] at h4 ⊢
      simpa using h4
    · exact lt_of_le_of_lt (pow_le_pow_right₀ (by omega) (by norm_num)) h4
  have e1 : bbs M r = r ^ 2 := Int.emod_eq_of_lt (by positivity) h2
  have e2 : bbs M (r ^ 2) = r ^ 2 * r ^ 2 := by
    have : bbs M (r ^ 2) = (r ^ 2) ^ 2 := Int.emod_eq_of_lt (by positivity) (by rw [← pow_mul]; exact h4)
    rw [this, sq]
  have key : Int.sqrt (commitBit (bbs M) pred (secretOf (bbs M) r) bit).1 = secretOf (bbs M) r := by
    show Int.sqrt (bbs M (bbs M r)) = bbs M r
    rw [e1, e2, Int.sqrt_eq]
    exact Int.natAbs_of_nonneg (by positivity)
  refine ⟨key, ?_, ?_⟩
  · rw [key]
    exact (C62_bit (bbs M) pred (secretOf (bbs M) r) bit).2
  · rw [key]
    exact (C62_bit (bbs M) pred (secretOf (bbs M) r) bit).1

/-- This meets the hypotheses of `C154_root_refuted`: two random bits and the modulus 437 = 19 * 23. -/
example : 2 ^ (4 * 2) ≤ 437 ∧ ((0 : Int) ≤ 3 ∧ (3 : Int) < 2 ^ 2) ∧
    commitBit (bbs 437) (fun s => parityNat s.toNat) (secretOf (bbs 437) 3) 1 = (81, 1) ∧ Int.sqrt 81 = 9 := by decide +kernel

/-- **C154 is false** of the protocol for three colours: it draws 512 bits for a secret whatever `security_parameter` it is called with,
so that with a modulus of 2048 bits or more (`k = 512`) the commitments of the first message are opened by anybody, with the integer
square roots of what they show.  Before any edge is asked for, this gives away a proper colouring. -/
theorem C154_coloring_refuted (k M : Nat) (hM : 2 ^ (4 * k) ≤ M) (pred : Int → Nat) {n : Nat} {G : List (Int × Int)} (hG : IsTop n G)
    (coloring : List (Int × Int)) (hk : (coloring.map Prod.fst).Nodup) (color : Int → Fin 3)
    (hc : ∀ v : Int, 1 ≤ v → v ≤ n → (v, ((color v : Nat) : Int)) ∈ coloring) (hpr : Proper G color)
    (perm : List Int) (hp3 : IsPerm 3 perm) (r : Fin n → Int × Int)
    (hr : ∀ i, (0 ≤ (r i).1 ∧ (r i).1 < 2 ^ k) ∧ (0 ≤ (r i).2 ∧ (r i).2 < 2 ^ k)) :
    ∃ committed, Color.commitColoring (bbs M) pred G coloring perm
        (drawn fun i => (secretOf (bbs M) (r i).1, secretOf (bbs M) (r i).2)) = .ok committed ∧
      ∃ learned : Int → Nat, Proper G learned ∧ (∀ v, learned v < 3) ∧ ∀ v : Int, 1 ≤ v → v ≤ n → ∃ c,
        Color.lookup committed v = .ok c ∧
        verifyInt (bbs M) pred 2 (c.map fun b => Int.sqrt b.1) c = true ∧
        decodeInt pred 2 (c.map fun b => Int.sqrt b.1) c = .ok (learned v) := by
  have hn : 0 < n := by
    obtain ⟨hr, e, he, -⟩ := hG
    have := hr e he
    omega
  set s : Fin n → Int × Int := fun i => (secretOf (bbs M) (r i).1, secretOf (bbs M) (r i).2) with hs
  refine ⟨_, Color.commitColoring_eq (bbs M) pred hG coloring hk color hc perm hp3 (drawn s) (Color.secOf hn s)
      (fun v a b => Color.drawn_eq hn s v a b), fun v => (perm.getD (color v) 0).toNat, ?_, ?_, ?_⟩
  · intro e he heq
    have a := Color.perm_entry perm hp3 (color e.1)
    have b := Color.perm_entry perm hp3 (color e.2)
    have hl := ZK.isPerm_length hp3
    have l1 : (color e.1 : Nat) < perm.length := by have := (color e.1).isLt; omega
    have l2 : (color e.2 : Nat) < perm.length := by have := (color e.2).isLt; omega
    have heq : perm.getD (color e.1) 0 = perm.getD (color e.2) 0 := by simp only at heq; omega
    rw [List.getD_eq_getElem _ _ l1, List.getD_eq_getElem _ _ l2] at heq
    exact hpr e he (Fin.ext ((List.Nodup.getElem_inj_iff (ZK.isPerm_nodup hp3)).mp heq))
  · intro v
    have := Color.perm_entry perm hp3 (color v)
    simp only
    omega
  · intro v h1 h2
    have b := Color.perm_entry perm hp3 (color v)
    have d := Color.decode_cells (bbs M) pred (Color.secOf hn s v) _ b.1 b.2
    refine ⟨_, Color.lookup_vertices n _ _ ⟨h1, h2⟩, ?_⟩
    obtain ⟨i, hi⟩ : ∃ i, Color.secOf hn s v = s i := ⟨_, rfl⟩
    rw [hi] at d ⊢
    have r1 := fun bit => (C154_root_refuted k M hM (r i).1 (hr i).1 pred bit).1
    have r2 := fun bit => (C154_root_refuted k M hM (r i).2 (hr i).2 pred bit).1
    have e : (Color.cells (bbs M) pred (s i) (perm.getD (color v) 0)).map (fun b => Int.sqrt b.1) = [(s i).1, (s i).2] := by
      show [Int.sqrt _, Int.sqrt _] = _
      exact congrArg₂ (fun a b => [a, b]) (r1 0) (r2 0)
    rw [e]
    refine ⟨?_, d⟩
    simp [verifyInt, Color.cells, verifyBit_iff]

/-- This meets the hypotheses of `C154_coloring_refuted`: a path of three vertices, the modulus 437 and draws of two bits. -/
example : 2 ^ (4 * 2) ≤ 437 ∧ IsTop 3 [(1, 2), (3, 2)] ∧ ([(1, 0), (2, 1), (3, 0)].map (Prod.fst : Int × Int → Int)).Nodup ∧
    (∀ v : Int, 1 ≤ v → v ≤ 3 → (v, (((fun v => if v = 2 then 1 else 0 : Int → Fin 3) v : Nat) : Int)) ∈ [(1, 0), (2, 1), (3, 0)]) ∧
    Proper [(1, 2), (3, 2)] (fun v => if v = 2 then 1 else 0 : Int → Fin 3) ∧ IsPerm 3 [2, 0, 1] ∧
    ∀ i, ((0 : Int) ≤ ((fun _ => (3, 2)) (i : Fin 3) : Int × Int).1 ∧ ((fun _ => (3, 2)) i : Int × Int).1 < 2 ^ 2) ∧
      ((0 : Int) ≤ ((fun _ => (3, 2)) i : Int × Int).2 ∧ ((fun _ => (3, 2)) i : Int × Int).2 < 2 ^ 2) := by
  refine ⟨by decide, ⟨by unfold InRange; decide, (3, 2), by decide, by decide⟩, by decide, ?_, by unfold Proper; decide,
    by unfold IsPerm; decide, by decide⟩
  intro v h1 h3
  have : v = 1 ∨ v = 2 ∨ v = 3 := by omega
  rcases this with rfl | rfl | rfl <;> decide

/-- **C154 is false** of runs of the generator: with 1279 bits for the primes the modulus can be the square of the prime `2^1279 - 1`,
and then the secrets of all commitments with the default of 512 bits are the integer square roots of their first components. -/
theorem C154_generator_refuted (bases : Nat → Nat → Int) (hb : ∀ i j, 2 ≤ bases i j ∧ bases i j ≤ (mersenne 1279 : Nat) - 2) :
    Draws 1279 (fun _ => (mersenne 1279 : Nat)) bases ∧ ∃ f,
      blumBlumShub 2 (fun _ => (mersenne 1279 : Nat)) (fun _ => (mersenne 1279 : Nat)) bases bases = .ok f ∧
      ∀ (r : Int) (pred : Int → Nat) (bit : Nat), 0 ≤ r → r < 2 ^ 512 →
        Int.sqrt (commitBit f pred (secretOf f r) bit).1 = secretOf f r := by
  have hprime : (mersenne 1279).Prime := lucas_lehmer_sufficiency 1279 (by norm_num) (by norm_num)
  have h3 : mersenne 1279 % 4 = 3 := by decide +kernel
  have hlt : mersenne 1279 < 2 ^ 1279 := by norm_num [mersenne]
  have hM : 2 ^ (4 * 512) ≤ mersenne 1279 * mersenne 1279 := by decide +kernel
  generalize mersenne 1279 = p at *
  obtain ⟨hd, hm⟩ := C114_tiny_refuted 1279 p hprime h3 hlt bases (fun i j _ => hb i j)
  refine ⟨hd, bbs ((p * p : Nat) : Int), ?_, ?_⟩
  · unfold blumBlumShub
    rw [hm]
    show Except.ok _ = _
    push_cast
    rfl
  · intro r pred bit a b
    exact (C154_root_refuted 512 (p * p) hM r ⟨a, b⟩ pred bit).1

/-- This meets the hypotheses of `C154_generator_refuted`. -/
example : ∀ i j : Nat, (2 : Int) ≤ (fun _ _ => 2 : Nat → Nat → Int) i j ∧
    (fun _ _ => 2 : Nat → Nat → Int) i j ≤ (mersenne 1279 : Nat) - 2 := by
  have h : 4 ≤ mersenne 1279 := by decide +kernel
  intro i j
  simp only
  omega

end Verif.Props
