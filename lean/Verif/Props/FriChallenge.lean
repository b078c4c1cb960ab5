import Verif.Model.FriChallenge
import Verif.Props.Fri
import Mathlib.Analysis.SpecialFunctions.Log.Base
/-!
# C95, C120: the number of rounds of FRI, and its challenges
-/

namespace Verif.Props
open Poly PolyUtils ReedSolomon Fri
open MvString (Str strNat)

/-! ### Rounds -/

section
variable {p : Nat} [hp : Fact p.Prime] {V F : Type} [AddCommGroup V] [Module (Zp p) V] [Field F] [DecidableEq F]
variable (basis : List V) (shift : V) (cast : V → F) (rho : Rate) (challenge : Nat → Py F)

/-- **C95**, **C96** fail for every space of realistic size.  `ρ` is the rate and `q` the double computed for `(k_0 - R) / eta`, off by
at most 1/4 from the real number `log₂(|S| ρ) / 2`.  If `|S| ρ ≥ 32` (and `len` works), both methods raise `AttributeError`, whatever
the function, the proof and the draws; if `|S| ρ < 2`, `commit` returns None. -/
theorem C95_size_refuted (ρ : ℝ) (hρ : (∃ n : Int, 0 < n ∧ rho = .int n ∧ ρ = n) ∨ (rho = .other true ∧ 0 < ρ)) (q : ℚ)
    (hq : |(q : ℝ) - Real.logb 2 ((p : ℝ) ^ basis.length * ρ) / 2| ≤ 1 / 4) (hlen : p ^ basis.length ≤ 2 ^ 63 - 1)
    (f : Fn V F) (val : V → F) (g : F → F) (hf : ∀ v, f (.inl v) = .ok (val v)) (hf' : ∀ y, f (.inr y) = .ok (g y))
    (fs : List (Fn V F)) (coeff : Option (List F)) (draw : Nat → Nat) (x : F) (hx : challenge 0 = .ok x) :
    let o := friObj p basis shift cast rho ⌊q⌋ challenge
    (32 ≤ (p : ℝ) ^ basis.length * ρ → commit o f = .error .attributeError ∧ query o fs coeff draw = .error .attributeError) ∧
    ((p : ℝ) ^ basis.length * ρ < 2 → commit o f = .ok none) := by
  intro o
  have hpos : 0 < ρ := by
    rcases hρ with ⟨n, hn, -, rfl⟩ | ⟨-, h⟩
    · exact_mod_cast hn
    · exact h
  have hp0 : (0 : ℝ) < (p : ℝ) ^ basis.length * ρ := mul_pos (pow_pos (by exact_mod_cast hp.out.pos) _) hpos
  have hpos' : (∃ n : Int, 0 < n ∧ rho = .int n) ∨ rho = .other true := by
    rcases hρ with ⟨n, hn, h, -⟩ | ⟨h, -⟩
    · exact .inl ⟨n, hn, h⟩
    · exact .inr h
  have hq' := abs_le.1 hq
  constructor
  · intro h
    have h5 : (5 : ℝ) ≤ Real.logb 2 ((p : ℝ) ^ basis.length * ρ) := by
      rw [Real.le_logb_iff_rpow_le (by norm_num) hp0]
      have : (2 : ℝ) ^ (5 : ℝ) = 32 := by norm_num
      rwa [this]
    have hr : 2 ≤ ⌊q⌋ := by
      rw [Int.le_floor]
      have : ((2 : ℚ) : ℝ) ≤ (q : ℝ) := by push_cast; linarith [hq'.1]
      exact_mod_cast this
    exact (C95_errors_refuted basis shift cast rho challenge f val g hf hf' fs coeff draw ⌊q⌋ x hx).2.2.1 hpos' (by omega) hr
  · intro h
    have h1 : Real.logb 2 ((p : ℝ) ^ basis.length * ρ) < 1 := by
      rw [Real.logb_lt_iff_lt_rpow (by norm_num) hp0]
      simpa using h
    have hr : ⌊q⌋ ≤ 0 := by
      rw [← Int.lt_add_one_iff, Int.floor_lt]
      have : (q : ℝ) < ((1 : ℚ) : ℝ) := by push_cast; linarith [hq'.2]
      simpa using (by exact_mod_cast this : q < 1)
    have hrho : checkRate rho = .ok () := by
      rcases hpos' with ⟨n, hn, h⟩ | h
      · simp [h, checkRate, hn]
      · simp [h, checkRate]
    exact (C96_no_round_refuted basis shift cast rho challenge hlen hrho ⌊q⌋ hr f draw).1

end

/-- A space of 64 elements, with rate 1: three rounds (the double is exact). -/
example (f : Fn (CPoly (Zp 2)) (FF.Fq gf8)) (val : CPoly (Zp 2) → FF.Fq gf8) (g : FF.Fq gf8 → FF.Fq gf8) (hf : ∀ v, f (.inl v) = .ok (val v))
    (hf' : ∀ y, f (.inr y) = .ok (g y)) (basis : List (CPoly (Zp 2))) (hb : basis.length = 6) :
    commit (friObj 2 basis 0 (Apr.castHom gf8) (.int 1) ⌊(3 : ℚ)⌋ fun _ => .ok 1) f = .error .attributeError := by
  refine ((C95_size_refuted (p := 2) basis 0 (Apr.castHom gf8) (.int 1) (fun _ => .ok 1) 1 (.inl ⟨1, by norm_num, rfl, by norm_num⟩) 3 ?_ ?_ f val g
    hf hf' [] none (fun _ => 0) 1 rfl).1 ?_).1
  · have h : Real.logb 2 (((2 : Nat) : ℝ) ^ basis.length * 1) = 6 := by
      rw [hb, mul_one, Real.logb_pow]
      norm_num
    rw [h]
    norm_num
  · rw [hb]; norm_num
  · rw [hb]; norm_num

/-! ### Challenges -/

theorem digitChar_ne {d : Nat} (h : d < 16) : Nat.digitChar d ≠ '>' := by
  interval_cases d <;> decide

theorem digitChar_inj16 {d e : Nat} (hd : d < 16) (he : e < 16) (h : Nat.digitChar d = Nat.digitChar e) : d = e := by
  revert h
  interval_cases d <;> interval_cases e <;> decide

theorem hexStr_no (n : Nat) : '>' ∉ hexStr n := by
  unfold hexStr
  split
  · decide
  · simp only [List.mem_map, List.mem_reverse, not_exists, not_and]
    intro d hd h
    exact digitChar_ne (Nat.digits_lt_base (by norm_num) hd) h

theorem hexStr_inj {n m : Nat} (h : hexStr n = hexStr m) : n = m := by
  have key : ∀ a b : List Nat, (∀ d ∈ a, d < 16) → (∀ d ∈ b, d < 16) → a.map Nat.digitChar = b.map Nat.digitChar → a = b := by
    intro a
    induction a with
    | nil => intro b _ _ h; simpa using h.symm
    | cons x a ih =>
      intro b ha hb h
      cases b with
      | nil => simp at h
      | cons y b =>
        simp only [List.map_cons, List.cons.injEq] at h
        rw [digitChar_inj16 (ha x (by simp)) (hb y (by simp)) h.1, ih b (fun d hd => ha d (by simp [hd])) (fun d hd => hb d (by simp [hd])) h.2]
  have hz : ∀ k : Nat, k ≠ 0 → (Nat.digits 16 k).reverse.map Nat.digitChar ≠ ['0'] := by
    intro k hk h
    have h1 : (Nat.digits 16 k).reverse = [0] := key _ [0] (fun d hd => Nat.digits_lt_base (by norm_num) (List.mem_reverse.1 hd))
      (by simp) h
    have h2 : Nat.digits 16 k = [0] := by simpa using congrArg List.reverse h1
    have h3 := Nat.ofDigits_digits 16 k
    rw [h2] at h3
    simp at h3
    exact hk h3.symm
  unfold hexStr at h
  split_ifs at h with h1 h2 h2
  · omega
  · exact absurd h.symm (hz m h2)
  · exact absurd h (hz n h1)
  · have h3 := key _ _ (fun d hd => Nat.digits_lt_base (by norm_num) (List.mem_reverse.1 hd))
      (fun d hd => Nat.digits_lt_base (by norm_num) (List.mem_reverse.1 hd)) h
    have h4 := congrArg List.reverse h3
    rw [List.reverse_reverse, List.reverse_reverse] at h4
    rw [← Nat.ofDigits_digits 16 n, h4, Nat.ofDigits_digits]

theorem append_stop {c : Char} : ∀ {a b r s : Str}, c ∉ a → c ∉ b → a ++ c :: r = b ++ c :: s → a = b ∧ r = s
  | [], [], r, s, _, _, h => by simpa using h
  | [], y :: b, r, s, _, hb, h => by
    simp only [List.nil_append, List.cons_append, List.cons.injEq] at h
    exact absurd h.1 (fun e => hb (by simp [e]))
  | x :: a, [], r, s, ha, _, h => by
    simp only [List.nil_append, List.cons_append, List.cons.injEq] at h
    exact absurd h.1 (fun e => ha (by simp [e]))
  | x :: a, y :: b, r, s, ha, hb, h => by
    simp only [List.cons_append, List.cons.injEq] at h
    obtain ⟨h1, h2⟩ := append_stop (fun h' => ha (by simp [h'])) (fun h' => hb (by simp [h'])) h.2
    exact ⟨by rw [h.1, h1], h2⟩

theorem spaceStr_inj {a b : Nat} {r s : Str} (h : spaceStr a ++ r = spaceStr b ++ s) : a = b ∧ r = s := by
  unfold spaceStr at h
  generalize "<starks.reedsolomon.AffineSpace object at 0x".toList = pre at h
  simp only [List.append_assoc] at h
  have h1 := List.append_cancel_left h
  obtain ⟨h2, h3⟩ := append_stop (hexStr_no a) (hexStr_no b) h1
  exact ⟨hexStr_inj h2, h3⟩

theorem lt_mem_spaceStr (a : Nat) : '<' ∈ spaceStr a :=
  List.mem_append_left _ (List.mem_append_left _ (by decide +kernel))

variable {p : Nat} [hp : Fact p.Prime]

/-- The challenge `select_random(field, text)` in the extension field `Z/p[x]/(f)`. -/
def fqChallenge (f : List (Zp p)) [FF.IsModulus f] (digest : String → Nat) (text : Str) : Py (FF.Fq f) :=
  selectRandom (some fun l : List (Zp p) => Apr.castHom f (CPoly.mk l)) digest (String.ofList text)

theorem challenge_ne (f : List (Zp p)) [FF.IsModulus f] {s t : Str} (h : s ≠ t) :
    ∃ (digest : String → Nat) (c d : FF.Fq f), fqChallenge f digest s = .ok c ∧ fqChallenge f digest t = .ok d ∧ c ≠ d := by
  have h' : String.ofList t ≠ String.ofList s := fun e => h (String.ofList_injective e).symm
  refine ⟨fun x => if x = String.ofList s then 0 else 1, 0, 1, ?_, ?_, zero_ne_one⟩
  · simp only [fqChallenge, selectRandom, if_true]
    have : hexToBin 0 = .ok [] := rfl
    simp only [this, bind, Except.bind]
    congr 1
    exact map_zero (Apr.castHom f)
  · simp only [fqChallenge, selectRandom, if_neg h']
    have : hexToBin 1 = .ok [1] := rfl
    simp only [this, bind, Except.bind]
    congr 1
    have e : CPoly.mk (ctor ([1].map fun b : Nat => ((b : Nat) : Zp p))) = 1 := by
      apply CPoly.val_inj
      show toPoly (ctor _) = _
      rw [toPoly_ctor, toPoly_ctor]
      simp [toPoly_cons, toPoly_nil]
    rw [e, map_one]

/-- **C120** fails between prover and verifier: in the first round `commit` and `query` always hash different texts, so that for every
extension field there is a digest function with different challenges.  (`str` of a float contains no `<`.) -/
theorem C120_agreement_refuted {Fl : Type} (str : Fl → Str) (hstr : ∀ x, '<' ∉ str x) (sum R k0 : Fl) (r : Int) (space subspace : Nat)
    (f : List (Zp p)) [FF.IsModulus f] :
    commitText str sum ≠ queryText str R r k0 space subspace ∧
    ∃ (digest : String → Nat) (c d : FF.Fq f), fqChallenge f digest (commitText str sum) = .ok c ∧
      fqChallenge f digest (queryText str R r k0 space subspace) = .ok d ∧ c ≠ d := by
  have h : commitText str sum ≠ queryText str R r k0 space subspace := by
    intro e
    have : '<' ∈ queryText str R r k0 space subspace := List.mem_append_right _ (lt_mem_spaceStr subspace)
    rw [← e] at this
    exact hstr sum this
  exact ⟨h, challenge_ne f h⟩

example : ∀ x : Nat, '<' ∉ List.replicate x '7' ++ ['.', '0'] := by
  intro x h
  simp [List.mem_replicate] at h

/-- **C120** fails between two runs of the verifier: `query` hashes the addresses of its objects, the same text exactly when both
addresses are the same; otherwise there is a digest function with different challenges. -/
theorem C120_address_refuted {Fl : Type} (str : Fl → Str) (R k0 : Fl) (r : Int) (a b a' b' : Nat) (f : List (Zp p)) [FF.IsModulus f] :
    (queryText str R r k0 a b = queryText str R r k0 a' b' ↔ a = a' ∧ b = b') ∧
    (¬ (a = a' ∧ b = b') → ∃ (digest : String → Nat) (c d : FF.Fq f), fqChallenge f digest (queryText str R r k0 a b) = .ok c ∧
      fqChallenge f digest (queryText str R r k0 a' b') = .ok d ∧ c ≠ d) := by
  have h : queryText str R r k0 a b = queryText str R r k0 a' b' ↔ a = a' ∧ b = b' := by
    constructor
    · intro e
      simp only [queryText, List.append_assoc] at e
      have e1 := List.append_cancel_left (List.append_cancel_left (List.append_cancel_left (List.append_cancel_left e)))
      obtain ⟨h1, h2⟩ := spaceStr_inj e1
      have h3 : spaceStr b ++ [] = spaceStr b' ++ [] := by simpa using h2
      exact ⟨h1, (spaceStr_inj h3).1⟩
    · rintro ⟨rfl, rfl⟩
      rfl
  exact ⟨h, fun hn => challenge_ne f fun e => hn (h.1 e)⟩

/-- **C120**, what does hold: `commit` derives its challenge from the number `R + eta + r + k_0 + i` alone. -/
theorem C120_commit_partial {Fl : Type} (str : Fl → Str) (x y : Fl) (h : str x = str y) (f : List (Zp p)) [FF.IsModulus f]
    (digest : String → Nat) : ∃ c, fqChallenge f digest (commitText str x) = .ok c ∧ fqChallenge f digest (commitText str y) = .ok c := by
  obtain ⟨c, -, h1, -⟩ := C98_select_random_partial f digest (String.ofList (commitText str x))
  exact ⟨c, h1, by rw [commitText, ← h]; exact h1⟩

/-- With `R = -1.0`, `k_0 = 2.0`, one round: the texts are `4.0` and `-1.0212.0<…>`. -/
example : commitText (Fl := String) String.toList "4.0" = "4.0".toList ∧
    queryText String.toList "-1.0" 1 "2.0" 0x7f10 0x7f4c =
      ("-1.0212.0<starks.reedsolomon.AffineSpace object at 0x7f10><starks.reedsolomon.AffineSpace object at 0x7f4c>").toList := by
  decide +kernel

end Verif.Props
