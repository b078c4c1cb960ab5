import Verif.Proofs.CommitmentReuse
import Verif.Props.Commitment
/-! # C144: one commitment object used several times

`commitEach owp hp secrets xs` are the commitments an object with these secrets returns for the integers `xs`, one after the other. -/

namespace Verif.Props
open Spec
open Verif.Commit Verif.Bbs

variable {S T : Type}

/-- **C144.** Every commitment an object made opens to its own integer under the one secret of the object, whatever else the object
committed to before and after, and is verified. -/
theorem C144_all_open [DecidableEq T] (owp : S → T) (hp : S → Nat) (numBits : Nat) (hn : 1 ≤ numBits) (secrets : List S)
    (hs : secrets.length = numBits) (xs : List Nat) (hx : ∀ x ∈ xs, x < 2 ^ numBits) :
    ∃ cs, commitEach owp hp secrets xs = .ok cs ∧ cs.length = xs.length ∧
      ∀ (i : Nat) (h : i < cs.length) (h' : i < xs.length),
        decodeInt hp numBits secrets cs[i] = .ok xs[i] ∧ verifyInt owp hp numBits secrets cs[i] = true := by
  induction xs with
  | nil => exact ⟨[], rfl, rfl, fun i h => by simp at h⟩
  | cons x xs ih =>
    obtain ⟨c, h1, -, h3, h4⟩ := C62_int owp hp numBits hn secrets hs x (hx x (by simp))
    obtain ⟨cs, g1, g2, g3⟩ := ih fun y hy => hx y (by simp [hy])
    refine ⟨c :: cs, ?_, by simp [g2], ?_⟩
    · unfold commitEach at g1 ⊢
      simp only [PolyUtils.pyMap, h1, g1, bind, Except.bind]
    · intro i h h'
      cases i with
      | zero => exact ⟨h3, h4⟩
      | succ i => exact g3 i (by simpa using h) (by simpa using h')

/-- **C144.** The commitments of one object do not hide its integers: from two of them anyone computes the exclusive or of the two
integers, without a secret, the one-way function or the predicate. So when one integer becomes known, all the others are known. -/
theorem C144_hiding_refuted : ∃ attack : List (T × Nat) → List (T × Nat) → Nat, ∀ (owp : S → T) (hp : S → Nat) (secrets : List S),
    1 ≤ secrets.length → ∀ x y : Nat, x < 2 ^ secrets.length → y < 2 ^ secrets.length →
      ∃ c c', commitEach owp hp secrets [x, y] = .ok [c, c'] ∧ attack c c' = x ^^^ y ∧ attack c c' ^^^ y = x := by
  refine ⟨xorOf, fun owp hp secrets hn x y hx hy => ?_⟩
  have e : secrets = List.ofFn secrets.get := (List.ofFn_get secrets).symm
  have h := commitEach_ofFn owp hp hn secrets.get [x, y] (by
    intro z hz
    rcases List.mem_cons.1 hz with rfl | hz
    · exact hx
    · rcases List.mem_cons.1 hz with rfl | hz
      · exact hy
      · simp at hz)
  have hc := commitInt_ofFn owp hp hn secrets.get x hx
  have hc' := commitInt_ofFn owp hp hn secrets.get y hy
  have hxor := xorOf_spec owp hp hn secrets.get x y hx hy _ _ hc hc'
  rw [← e] at h
  refine ⟨_, _, h, hxor, ?_⟩
  rw [hxor, Nat.xor_assoc, Nat.xor_self, Nat.xor_zero]

/-- **C144.** That is all they tell, if the commitments hide perfectly (the secrets come in pairs that the one-way function does not
tell apart and that the predicate does): two sequences of integers give every sequence of commitments from equally many draws of the
secrets exactly when they differ by one mask, that is, when the exclusive ors of their members agree. -/
theorem C144_exact_partial [Finite S] [Nonempty S] (owp : S → T) (hp : S → Nat) (hb : ∀ s, hp s ≤ 1) (flip : S → S)
    (hi : ∀ s, flip (flip s) = s) (hf : ∀ s, owp (flip s) = owp s ∧ hp (flip s) ≠ hp s) (n : Nat) (hn : 1 ≤ n) (xs ys : List Nat)
    (hx : ∀ x ∈ xs, x < 2 ^ n) (hy : ∀ y ∈ ys, y < 2 ^ n) :
    (∀ cs, {d : Fin n → S | commitEach owp hp (List.ofFn d) xs = .ok cs}.ncard =
      {d : Fin n → S | commitEach owp hp (List.ofFn d) ys = .ok cs}.ncard) ↔ ∃ m < 2 ^ n, ys = xs.map (m ^^^ ·) := by
  constructor
  · intro h
    obtain ⟨s⟩ := ‹Nonempty S›
    have e := commitEach_ofFn owp hp hn (fun _ : Fin n => s) xs hx
    have pos : 0 < {d : Fin n → S | commitEach owp hp (List.ofFn d) xs =
        .ok (xs.map fun x => List.ofFn fun j : Fin n => (owp s, hp s ^^^ (x.testBit (n - 1 - j)).toNat))}.ncard :=
      (Set.ncard_pos (Set.toFinite _)).2 ⟨fun _ => s, e⟩
    rw [h] at pos
    obtain ⟨d', hd'⟩ := (Set.ncard_pos (Set.toFinite _)).1 pos
    exact mask_of_eq owp hp hb hn _ d' xs ys hx hy (e.trans hd'.symm)
  · rintro ⟨m, hm, rfl⟩ cs
    apply le_antisymm
    · exact views_le owp hp hb flip hi hf hn m hm xs hx cs
    · have := views_le owp hp hb flip hi hf hn m hm (xs.map (m ^^^ ·)) hy cs
      rwa [xor_map_map] at this

/-- **C144.** An object used once hides its integer, under the same condition. -/
theorem C144_single_use_partial [Finite S] (owp : S → T) (hp : S → Nat) (hb : ∀ s, hp s ≤ 1) (flip : S → S)
    (hi : ∀ s, flip (flip s) = s) (hf : ∀ s, owp (flip s) = owp s ∧ hp (flip s) ≠ hp s) (n : Nat) (hn : 1 ≤ n) (x y : Nat)
    (hx : x < 2 ^ n) (hy : y < 2 ^ n) (c : List (T × Nat)) :
    {d : Fin n → S | commitInt owp hp (List.ofFn d) x = .ok c}.ncard = {d : Fin n → S | commitInt owp hp (List.ofFn d) y = .ok c}.ncard := by
  have key : ∀ z : Nat, {d : Fin n → S | commitInt owp hp (List.ofFn d) z = .ok c} = {d : Fin n → S | commitEach owp hp (List.ofFn d) [z] = .ok [c]} := by
    intro z
    ext d
    simp only [Set.mem_ofPred_eq, commitEach, PolyUtils.pyMap, bind, Except.bind]
    cases commitInt owp hp (List.ofFn d) z <;> simp
  have one : ∀ x y : Nat, x < 2 ^ n → y < 2 ^ n → {d : Fin n → S | commitEach owp hp (List.ofFn d) [x] = .ok [c]}.ncard ≤
      {d : Fin n → S | commitEach owp hp (List.ofFn d) [y] = .ok [c]}.ncard := by
    intro x y hx hy
    have h := views_le owp hp hb flip hi hf hn (y ^^^ x) (Nat.xor_lt_two_pow hy hx) [x] (by simpa using hx) [c]
    rwa [List.map_cons, List.map_nil, Nat.xor_assoc, Nat.xor_self, Nat.xor_zero] at h
  rw [key, key]
  exact le_antisymm (one x y hx hy) (one y x hy hx)

/-- Three integers committed with one object over the modulus 77, and the exclusive or of the first two read off. This meets the
hypotheses of `C144_all_open`, `C144_hiding_refuted`. -/
example : (commitEach (fun s : Nat => bbs 77 s) parityNat [4, 9, 71] [6, 3, 6]).toOption =
      some [[(16, 0), (4, 1), (36, 0)], [(16, 1), (4, 1), (36, 1)], [(16, 0), (4, 1), (36, 0)]] ∧
    xorOf [((16 : Int), 0), (4, 1), (36, 0)] [(16, 1), (4, 1), (36, 1)] = 6 ^^^ 3 ∧ 6 < 2 ^ [4, 9, 71].length := by decide +kernel

/-- Secrets with a hidden half. This meets the hypotheses of `C144_exact_partial`, `C144_single_use_partial`. -/
example : let owp : Bool × Bool → Bool := Prod.fst
    let hp : Bool × Bool → Nat := fun s => s.2.toNat
    let flip : Bool × Bool → Bool × Bool := fun s => (s.1, !s.2)
    (∀ s, hp s ≤ 1) ∧ (∀ s, flip (flip s) = s) ∧ (∀ s, owp (flip s) = owp s ∧ hp (flip s) ≠ hp s) ∧
    [7, 2, 7] = [6, 3, 6].map (1 ^^^ ·) ∧ ¬ ∃ m < 2 ^ 3, [7, 2, 6] = [6, 3, 6].map (m ^^^ ·) := by
  decide +kernel

end Verif.Props
