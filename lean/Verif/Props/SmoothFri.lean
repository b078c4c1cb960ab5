import Verif.Proofs.SmoothFriSound
import Verif.Props.StarkProtocol
import Verif.Props.FFT
import Verif.Props.Modulus
/-!
# C127, C128: the proximity test over a multiplicative subgroup

`prove` and `verify` are `SmoothSubgroupFRI.generate_proximity_proof` and `verify_proximity_proof` (`starks/fri.py:176-366`, commented out
in the pinned commit; `starks/stark.py` calls a class `FRI` with these two methods, which exists nowhere else).  `HasOrder w (2^k)`: the multiplicative order of `w` is `2^k`.
`IsRootOf blake root U`: `root` is the root of the Merkle tree over the values `U`.
-/

namespace Verif.Props
open Verif.Poly Verif.Mv Verif.Stark Verif.Compression Verif.SmoothFri
open Polynomial

variable {p : Nat} [Fact p.Prime]

/-- `root` is entry 1 of `merkelize(U)`. -/
def IsRootOf (blake : Bytes → Bytes) (root : Bytes) (U : List (Zp p)) : Prop :=
  ∃ tree, Merkle.merkelize blake (U.map fun a => .elt (enc a)) = .ok tree ∧ tree[1]? = some root

/-- The strings hashed in building the trees over `U 0, …, U m`, where `m` is the number of items of a proof, in recomputing the root of its last
component, and in checking its branches (each at a position of its tree): finitely many. -/
def HashedFor (blake : Bytes → Bytes) (items : List Item) (last : List Bytes) (U : Nat → List (Zp p)) (s : Bytes) : Prop :=
  (∃ i ≤ items.length, ∃ tree, Merkle.merkelize blake ((U i).map fun a => .elt (enc a)) = .ok tree ∧ Merkle.HashedInTree tree s) ∨
  (∃ tree, Merkle.merkelize blake (last.map fun b => .int (fromBytes b)) = .ok tree ∧ Merkle.HashedInTree tree s) ∨
  ∃ it ∈ items, ∃ opened ∈ it.2, ∃ br ∈ opened, ∃ x < 2 ^ (br.length - 1), s ∈ Merkle.hashedByVerification blake x br

/-- The values of `P` at `1, w, …, w^(n-1)`. -/
noncomputable def valuesAt (w : Zp p) (n : Nat) (P : (Zp p)[X]) : List (Zp p) := (List.range n).map fun i => P.eval (w ^ i)

/-- **C127**. Let `f` have degree below the bound `d`, let `d` be `r * 4^j` with `r ≤ 16`, and let the verifier use no more spot checks
than the prover (and at most 40, if there is a second layer).  Then the prover returns a proof, and the verifier accepts it against
the root of the values of `f`, with any hash function of 32 bytes.

Missing: other bounds (`C127_bounds`), more than 40 spot checks (`C127_factor_refuted`), domains whose size is not a power of two
(`C127_order_refuted`). -/
theorem C127_completeness_partial (hp : p ≤ 2 ^ 256) (blake : Bytes → Bytes) (hbl : ∀ x, (blake x).length = 32) (w : Zp p) (k : Nat)
    (hk : 2 ≤ k) (hk2 : k < 26) (hw : HasOrder w (2 ^ k)) (d r j : Nat) (hd : d = r * 4 ^ j) (hr : r ≤ 16) (hdk : d ≤ 2 ^ k)
    (f : List (Zp p)) (hl : f.length ≤ 2 ^ k) (hf : (toPoly f).degree < d) (e : Nat) (he : e = 0 ∨ 2 ≤ e) (F F' : Nat)
    (hF : F' ≤ F) (h40 : d ≤ 67 ∨ F' ≤ 40) (root : Bytes) (hroot : IsRootOf blake root (valuesAt w (2 ^ k) (toPoly f))) :
    ∃ N, ∀ fuel ≥ N, ∃ pf, prove fuel blake f w d e F = .ok pf ∧ verify fuel blake pf root w d e F' = .ok true := by
  obtain ⟨m, m1, m2⟩ := hroot
  exact ⟨2 ^ k, fun fuel hfuel => complete hp blake hbl w k hk hk2 hw.eq fuel hfuel f hl d hdk ⟨r, j, hd, hr⟩ hf e he F F' (fun _ => hF)
    (fun h => h40.resolve_left (by omega)) m root m1 m2⟩

/-- **C127**, the bounds are the right ones: for `d ≤ 2^k` (with nothing excluded) the honest proof of every polynomial of degree
below `d` is accepted, if and only if `d` is `r * 4^j` with `r ≤ 16`.  The code divides the bound by four without rounding up. -/
theorem C127_bounds (hp : p ≤ 2 ^ 256) (blake : Bytes → Bytes) (hbl : ∀ x, (blake x).length = 32) (w : Zp p) (k : Nat)
    (hk : 2 ≤ k) (hk2 : k < 26) (hw : HasOrder w (2 ^ k)) (d : Nat) (hdk : d ≤ 2 ^ k) :
    (∀ (f : List (Zp p)) (root : Bytes), f.length ≤ 2 ^ k → (toPoly f).degree < d → IsRootOf blake root (valuesAt w (2 ^ k) (toPoly f)) →
      ∃ N, ∀ fuel ≥ N, ∃ pf, prove fuel blake f w d 0 40 = .ok pf ∧ verify fuel blake pf root w d 0 40 = .ok true) ↔
    ∃ r j, d = r * 4 ^ j ∧ r ≤ 16 := by
  constructor
  · intro h
    by_contra hQ
    have hlt : d / 4 ^ folds d * 4 ^ folds d < d :=
      lt_of_le_of_ne (Nat.div_mul_le_self _ _) fun h => hQ ((quarters_iff (d + 1) d (by omega)).2 h.symm)
    obtain ⟨c, hc⟩ : ∃ c, c = d / 4 ^ folds d * 4 ^ folds d := ⟨_, rfl⟩
    rw [← hc] at hlt
    have hfd : toPoly (List.replicate c (0 : Zp p) ++ [1]) = X ^ c := by
      clear h hQ hc hlt
      induction c with
      | zero => simp [toPoly]
      | succ c ih =>
        rw [List.replicate_succ, List.cons_append, toPoly_cons, ih, pow_succ']
        simp
    obtain ⟨m, root, m1, m2⟩ := values_tree hp blake k hk w (List.replicate c (0 : Zp p) ++ [1])
    have hm : Merkle.merkelize blake ((FFT.dft w (2 ^ k) (List.replicate c (0 : Zp p) ++ [1])).map fun a => .elt (enc a)) = .ok m := by
      rw [FFT.dft, List.map_map]
      exact m1
    obtain ⟨N, hN⟩ := h (List.replicate c 0 ++ [1]) root (by simp; omega) (by rw [hfd, degree_X_pow]; exact_mod_cast hlt) ⟨m, hm, m2⟩
    obtain ⟨pf, e1, e2⟩ := hN (max N (2 ^ k)) (le_max_left _ _)
    obtain ⟨pf', e3, e4⟩ := refuse hp blake hbl w k hk hk2 hw.eq (max N (2 ^ k)) (le_max_right _ _) d hdk hQ 0 (.inl rfl) (.inl rfl) 40 40
      le_rfl (fun _ => le_rfl) (List.replicate c 0 ++ [1]) (by rw [hfd, hc]) (by simp; omega) m root hm m2
    rw [e1] at e3
    cases e3
    exact e4 e2
  · rintro ⟨r, j, hd, hr⟩ f root hl hf hroot
    exact C127_completeness_partial hp blake hbl w k hk hk2 hw d r j hd hr hdk f hl hf 0 (.inl rfl) 40 40 le_rfl (.inr le_rfl) root hroot

/-- **C127** fails with more than 40 spot checks, as soon as there is a second layer: the recursive call of the prover opens only 40
positions, and the verifier raises `IndexError` on every honest proof. -/
theorem C127_factor_refuted (hp : p ≤ 2 ^ 256) (blake : Bytes → Bytes) (hbl : ∀ x, (blake x).length = 32) (w : Zp p) (k : Nat)
    (hk2 : k < 26) (hw : HasOrder w (2 ^ k)) (d : Nat) (hd : 68 ≤ d) (hdk : d ≤ 2 ^ k)
    (f : List (Zp p)) (hl : f.length ≤ 2 ^ k) (e : Nat) (he : e = 0 ∨ 2 ≤ e) (F F' : Nat)
    (hF : F' ≤ F) (h40 : 40 < F') (root : Bytes) (hroot : IsRootOf blake root (valuesAt w (2 ^ k) (toPoly f))) :
    ∃ N, ∀ fuel ≥ N, ∃ pf, prove fuel blake f w d e F = .ok pf ∧ verify fuel blake pf root w d e F' = .error .indexError := by
  obtain ⟨m, m1, m2⟩ := hroot
  exact ⟨2 ^ k, fun fuel hfuel => factor_refused hp blake hbl w k hk2 hw.eq fuel hfuel f hl d hdk e he F F' hF (by omega) h40 m root m1 m2⟩

/-- **C127** fails on other domains: if the order of `w` is not a power of two (`3 * 2^k` is fine for the transform and for the
prover), the verifier's loop `while testval != 1` never ends, whatever the proof. -/
theorem C127_order_refuted (blake : Bytes → Bytes) (w : Zp p) (hw : ∀ k, ¬ HasOrder w (2 ^ k)) (pf : FriProof) (root : Bytes)
    (d e F : Nat) : ∀ fuel, verify fuel blake pf root w d e F = .error .diverge := by
  intro fuel
  have hno : ∀ j, w ^ 2 ^ j ≠ 1 := by
    intro j hj
    obtain ⟨k, -, hk⟩ := (Nat.dvd_prime_pow Nat.prime_two).1 (orderOf_dvd_of_pow_eq_one hj)
    refine hw k ⟨by positivity, by rw [← hk]; exact pow_orderOf_eq_one w, fun i h1 h2 h3 => ?_⟩
    have := Nat.le_of_dvd h1 (orderOf_dvd_of_pow_eq_one h3)
    omega
  unfold verify
  rw [rou_diverges fuel w 1 hno]
  rfl

/-- **C128** fails altogether: for every vector of values, however far from every polynomial of degree below `d ≥ 4`, there is an accepted
proof.  The verifier does not check the length of the last component, and takes the four nodes at depth two of the last tree for its
leaves. -/
theorem C128_soundness_refuted (hp : p ≤ 2 ^ 256) (blake : Bytes → Bytes) (hbl : ∀ x, (blake x).length = 32) (w : Zp p) (k : Nat)
    (hk : 2 ≤ k) (hk2 : k < 26) (hw : HasOrder w (2 ^ k)) (d : Nat) (hd : 4 ≤ d) (hdk : d ≤ 2 ^ k) (e : Nat) (he : e = 0 ∨ 2 ≤ e)
    (F : Nat) (h40 : d ≤ 67 ∨ F ≤ 40) (U : List (Zp p)) (hU : U.length = 2 ^ k) (root : Bytes) (hroot : IsRootOf blake root U) :
    ∃ N, ∀ fuel ≥ N, ∃ pf, verify fuel blake pf root w d e F = .ok true := by
  obtain ⟨m, m1, m2⟩ := hroot
  exact ⟨2 ^ k, fun fuel hfuel => SmoothFri.forge hp blake hbl w k hk hk2 hw.eq fuel hfuel U hU d hd hdk e he F
    (fun h => h40.resolve_left (by omega)) m root m1 m2⟩

/-- Such vectors exist: the values of `X^(n/2)` agree with no polynomial of degree below `n/2` at more than half of the points. -/
theorem C128_far (w : Zp p) (k : Nat) (hw : HasOrder w (2 ^ k)) (P : (Zp p)[X]) (hP : P.degree < (2 ^ (k - 1) : Nat)) :
    ((Finset.range (2 ^ k)).filter fun i => (X ^ 2 ^ (k - 1) : (Zp p)[X]).eval (w ^ i) = P.eval (w ^ i)).card ≤ 2 ^ (k - 1) := by
  by_contra hlt
  have hne : P = X ^ 2 ^ (k - 1) := by
    apply Polynomial.eq_of_degree_sub_lt_of_eval_finset_eq
      (((Finset.range (2 ^ k)).filter fun i => (X ^ 2 ^ (k - 1) : (Zp p)[X]).eval (w ^ i) = P.eval (w ^ i)).image fun i => w ^ i)
    · rw [Finset.card_image_of_injOn]
      · refine lt_of_le_of_lt (degree_sub_le _ _) (max_lt (hP.trans (by exact_mod_cast not_le.1 hlt)) ?_)
        rw [degree_X_pow]
        exact_mod_cast not_le.1 hlt
      · intro a ha b hb h
        simp only [Finset.coe_filter, Finset.mem_range] at ha hb
        exact pow_inj_of_order hw.eq a b ha.1 hb.1 h
    · intro x hx
      obtain ⟨i, hi, rfl⟩ := Finset.mem_image.1 hx
      exact (Finset.mem_filter.1 hi).2.symm
  rw [hne, degree_X_pow] at hP
  exact absurd hP (lt_irrefl _)

/-- **C128**, what one layer checks, exactly: at each of the `F` positions `y` drawn from the second root, five branches open values
under the two roots, and the cubic polynomial through the four values of the row takes the value of the column at the challenge
(the first root, read as a number). -/
theorem C128_layer (blake : Bytes → Bytes) (hbl : ∀ x, (blake x).length = 32) (w : Zp p) (q : Nat) (hq : 2 ≤ q) (hq2 : q < 2 ^ 24)
    (hw : HasOrder w (4 * q)) (root root2 : Bytes) (branches : List (List (List Bytes))) (e : Nat) (he : e = 0 ∨ 2 ≤ e) (F : Nat) :
    verifyLayer blake ((List.range 4).map fun j => w ^ (q * j)) root w (4 * q) e F (root2, branches) = .ok () ↔
      ∃ ys, Utils.getPseudorandomIndices blake root2 q F e = .ok ys ∧ ∀ (i : Nat) (y : Int), ys[i]? = some y →
        ∃ opened, branches[i]? = some opened ∧ ∃ P : (Zp p)[X], P.degree < 4 ∧
          (∀ j < 4, ∃ br leaf, opened[j + 1]? = some br ∧ Merkle.verifyBranch blake root (y.toNat + q * j) br = .ok leaf ∧
            P.eval (w ^ (y.toNat + q * j)) = dec leaf) ∧
          ∃ br leaf, opened[0]? = some br ∧ Merkle.verifyBranch blake root2 y.toNat br = .ok leaf ∧ P.eval (dec root) = dec leaf :=
  layer_iff blake hbl w q hq hq2 hw.eq root _ rfl e he F (root2, branches)

/-- **C128**, under side conditions the code does not check.  Suppose the roots in an accepted proof are those of trees over vectors
`U 0` (the committed one), `U 1`, …, `U m`, of lengths `2^k`, `2^k/4`, …; that the branches have the lengths of paths in these trees, with
leaves of 32 bytes; and that the last component has as many entries (of 32 bytes) as the last domain.  Then, unless two different
strings with the same hash are among those hashed for the proof and the vectors (`HashedFor`): the last vector agrees with a polynomial of degree below the last bound at all positions but the multiples
of `e`; and at every position drawn from its root, every vector is the fold of the one before.

Missing: that this makes `U 0` close to a polynomial of degree below `d`, which is false (`C128_distance_refuted`); and without the side
conditions this is false too (`C128_soundness_refuted`). -/
theorem C128_acceptance_partial (hp : p ≤ 2 ^ 256) (blake : Bytes → Bytes) (hbl : ∀ x, (blake x).length = 32) (w : Zp p) (k : Nat)
    (hk2 : k < 26) (hw : HasOrder w (2 ^ k)) (d e F : Nat) (he : e = 0 ∨ 2 ≤ e) (root : Bytes) (items : List Item) (last : List Bytes)
    (hk : 2 * items.length + 2 ≤ k) (U : Nat → List (Zp p)) (hU : ∀ i ≤ items.length, (U i).length = 2 ^ (k - 2 * i))
    (h0 : IsRootOf blake root (U 0)) (hi : ∀ (i : Nat) (it : Item), items[i]? = some it → IsRootOf blake it.1 (U (i + 1)))
    (hshape : ∀ (i : Nat) (it : Item), items[i]? = some it → ∀ opened ∈ it.2, ∀ (j : Nat) (br : List Bytes), opened[j]? = some br →
      br.length = (if j = 0 then k - 2 * i - 2 else k - 2 * i) + 1 ∧ ∀ b, br.head? = some b → b.length = 32)
    (hlast : last.length = 2 ^ (k - 2 * items.length)) (hlast32 : ∀ b ∈ last, b.length = 32)
    (fuel : Nat) (hfuel : 2 ^ k ≤ fuel) (hv : verify fuel blake (items, last) root w d e F = .ok true) :
    (∃ s t, HashedFor blake items last U s ∧ HashedFor blake items last U t ∧ s ≠ t ∧ blake s = blake t) ∨
    (d / 4 ^ items.length ≤ 16 ∧ ∃ P : (Zp p)[X], P.degree < (d / 4 ^ items.length : Nat) ∧
      ∀ x < 2 ^ (k - 2 * items.length), e = 0 ∨ ¬ e ∣ x → (U items.length)[x]? = some (P.eval ((w ^ 4 ^ items.length) ^ x))) ∧
    ∀ (i : Nat) (it : Item), items[i]? = some it → ∃ ys, ys.length = F ∧
      Utils.getPseudorandomIndices blake it.1 (2 ^ (k - 2 * (i + 1)) : Nat) F e = .ok ys ∧
      ∀ y ∈ ys, ∃ P : (Zp p)[X], P.degree < 4 ∧
        (∀ j < 4, (U i)[y.toNat + 2 ^ (k - 2 * (i + 1)) * j]? = some (P.eval ((w ^ 4 ^ i) ^ (y.toNat + 2 ^ (k - 2 * (i + 1)) * j)))) ∧
        (U (i + 1))[y.toNat]? = some (P.eval (dec (if i = 0 then root else (items.getD (i - 1) it).1))) := by
  by_cases hcol : Collides blake (HashedFor blake items last U)
  · exact .inl hcol
  right
  obtain ⟨out, o1, o2⟩ := verify_inv blake fuel w k (by omega) hw.eq hfuel items last root d e F hv
  obtain ⟨l1, l2, l3, l4⟩ := (layers_sound (HashedFor blake items last U) hp blake hbl e he F items root w d k U out hk hk2 hw.eq ⟨by simpa using hU 0 (by omega), h0⟩
    (fun i it h => ⟨⟨hU (i + 1) (List.getElem?_eq_some_iff.1 h).1, hi i it h⟩, hshape i it h⟩)
    (fun i hi m hm s hs => .inl ⟨i, hi, m, hm, hs⟩)
    (fun it hit opened ho br hbr x hx s hs => .inr (.inr ⟨it, hit, opened, ho, br, hbr, x, hx, hs⟩)) o1).resolve_left hcol
  refine ⟨?_, l4⟩
  have hpow : 2 ^ k = 2 ^ (k - 2 * items.length) * 4 ^ items.length := by
    rw [show (4 : Nat) = 2 ^ 2 from rfl, ← pow_mul, ← pow_add]
    congr 1
    omega
  have hord : orderOf out.2.1 = 2 ^ (k - 2 * items.length) := by
    rw [l2, orderOf_pow_of_dvd (by positivity) (by rw [hw.eq, hpow]; exact dvd_mul_left _ _), hw.eq, hpow, Nat.mul_div_cancel _ (by positivity)]
  have hle : 2 ^ (k - 2 * items.length) ≤ 2 ^ k := Nat.pow_le_pow_right (by omega) (by omega)
  obtain ⟨c1, P, c2, c3⟩ := (last_sound (HashedFor blake items last U) hp blake hbl fuel out.2.1 (k - 2 * items.length) (by omega) hord (by omega) l1
    (fun m hm s hs => .inl ⟨_, le_rfl, m, hm, hs⟩) out.2.2 e last (fun m hm s hs => .inr (.inl ⟨m, hm, hs⟩)) hlast hlast32
    o2).resolve_left hcol
  rw [l3] at c1 c2
  rw [l2] at c3
  exact ⟨c1, P, c2, c3⟩

omit [Fact p.Prime] in
/-- The strings among which `C128_acceptance_partial` puts a collision are finitely many (among all strings every hash function of 32 bytes
has collisions). -/
theorem C128_hashed_finite (blake : Bytes → Bytes) (items : List Item) (last : List Bytes) (U : Nat → List (Zp p)) :
    {s | HashedFor blake items last U s}.Finite := by
  have htree : ∀ tree : List Bytes, {s | Merkle.HashedInTree tree s}.Finite := by
    intro tree
    refine Set.Finite.subset (List.finite_toSet ((List.range tree.length).map fun j => tree.getD (2 * j) [] ++ tree.getD (2 * j + 1) [])) ?_
    rintro s ⟨j, a, b, -, ha, hb, rfl⟩
    refine List.mem_map.2 ⟨j, List.mem_range.2 ?_, ?_⟩
    · have := (List.getElem?_eq_some_iff.1 hb).1
      omega
    · rw [List.getD_eq_getElem?_getD, List.getD_eq_getElem?_getD, ha, hb]
      rfl
  have hroot : ∀ L : List Merkle.Leaf, {s | ∃ tree, Merkle.merkelize blake L = .ok tree ∧ Merkle.HashedInTree tree s}.Finite := by
    intro L
    cases h : Merkle.merkelize blake L with
    | error e => exact Set.Finite.subset Set.finite_empty (by rintro s ⟨t, ht, -⟩; cases ht)
    | ok t => exact Set.Finite.subset (htree t) (by rintro s ⟨t', ht, hs⟩; cases ht; exact hs)
  refine Set.Finite.union ?_ (Set.Finite.union (hroot _) ?_)
  · refine Set.Finite.subset (Set.Finite.biUnion (Set.finite_Iic items.length) fun i _ => hroot ((U i).map fun a => .elt (enc a))) ?_
    rintro s ⟨i, hi, h⟩
    exact Set.mem_biUnion hi h
  · refine Set.Finite.subset (Set.Finite.biUnion (List.finite_toSet items) fun it _ => Set.Finite.biUnion (List.finite_toSet it.2) fun o _ =>
      Set.Finite.biUnion (List.finite_toSet o) fun br _ => Set.Finite.biUnion (Set.finite_Iio (2 ^ (br.length - 1))) fun x _ =>
        List.finite_toSet (Merkle.hashedByVerification blake x br)) ?_
    rintro s ⟨it, h1, o, h2, br, h3, x, h4, h5⟩
    exact Set.mem_biUnion h1 (Set.mem_biUnion h2 (Set.mem_biUnion h3 (Set.mem_biUnion h4 h5)))

/-- **C74** with this proximity test, and at most 80 spot checks of the trace: if `steps * deg` is `r * 4^j` with `r ≤ 16` (which always holds
for `deg ≤ 8`), the proof of a valid execution whose outputs are not zero is made and accepted, end to end. -/
theorem C74_smooth (blake : Bytes → Bytes) (hbl : ∀ x, (blake x).length = 32) (a b width : Nat)
    (polys : List (Dict (Zp p))) (c : Computation p a b width polys) (deg : Nat) (hdeg : IsDegree width polys deg) (hdeg1 : 1 ≤ deg)
    (hdeg2 : deg ≤ 2 ^ b) (hq : deg ≤ 8 ∨ ∃ r j, 2 ^ a * deg = r * 4 ^ j ∧ r ≤ 16)
    (boundary : List (Nat × Nat × Zp p)) (W : List (List (Zp p))) (hW : IsExecution width (2 ^ a) polys boundary W)
    (hout : ∀ col ∈ W, ∀ out, col.getLast? = some out → out ≠ 0) (factor : Nat) (hfac : factor ≤ 80) :
    ∃ N, ∀ fuel ≥ N, ∃ S pr, mkStark fuel p (2 ^ a) (2 ^ b) width width polys factor = .ok S ∧
      mkProof fuel blake (fun f w d e => prove fuel blake f w d e 40) S W boundary = .ok pr ∧
      verifyProof blake (fun pf root w d e => verify fuel blake pf root w d e 40) S W boundary pr = .ok true := by
  have hQ : Quarters (2 ^ a * deg) := by
    rcases hq with h8 | h
    · obtain ⟨j, rfl | rfl⟩ := a.even_or_odd'
      · exact ⟨deg, j, by rw [pow_mul, show (2 : Nat) ^ 2 = 4 from rfl, mul_comm], by omega⟩
      · exact ⟨2 * deg, j, by rw [pow_succ, pow_mul, show (2 : Nat) ^ 2 = 4 from rfl]; ring, by omega⟩
    · exact h
  obtain ⟨N, hN⟩ := C74_completeness_partial (φ := FriProof) blake hbl a b width polys c deg hdeg hdeg1 (by omega) boundary W hW hout factor hfac
  refine ⟨max N (2 ^ (a + b)), fun fuel hfuel => hN fuel (le_trans (le_max_left _ _) hfuel) _ _ ?_⟩
  intro l G tree root hG hl hld t1 t2
  rw [← pow_add] at hG hl t1
  have hb2 : 2 ≤ 2 ^ b := by
    calc 2 = 2 ^ 1 := rfl
      _ ≤ _ := Nat.pow_le_pow_right (by omega) c.ext
  exact complete c.modulus blake hbl G (a + b) (by have := c.steps; have := c.ext; omega) (by have := c.size; omega) hG.eq fuel
    (le_trans (le_max_right _ _) hfuel) l hl _ (by rw [pow_add]; exact Nat.mul_le_mul_left _ hdeg2) hQ hld _ (.inr hb2) 40 40 (fun _ => le_rfl)
    (fun _ => le_rfl) tree root (by rw [FFT.dft, List.map_map]; exact t1) t2

/-- **C75** with this proximity test: for every computation and every claimed input and output there is a proof that `verify_proof`
accepts. -/
theorem C75_smooth_refuted (blake : Bytes → Bytes) (hbl : ∀ x, (blake x).length = 32) (a b width : Nat)
    (polys : List (Dict (Zp p))) (c : Computation p a b width polys) (deg : Nat) (hdeg : IsDegree width polys deg)
    (hdeg1 : 4 ≤ 2 ^ a * deg) (hdeg2 : deg ≤ 2 ^ b)
    (boundary : List (Nat × Nat × Zp p)) (hbd : boundary.length = width)
    (W : List (List (Zp p))) (hWl : W.length = width) (hW : ∀ col ∈ W, col ≠ []) (factor : Nat) :
    ∃ N, ∀ fuel ≥ N, ∃ S pr, mkStark fuel p (2 ^ a) (2 ^ b) width width polys factor = .ok S ∧
      verifyProof blake (fun pf root w d e => verify fuel blake pf root w d e 40) S W boundary pr = .ok true := by
  obtain ⟨N, hN⟩ := C75_forgery (φ := FriProof) blake hbl a b width polys c deg hdeg boundary hbd W hWl hW factor
  refine ⟨max N (2 ^ (a + b)), fun fuel hfuel => hN fuel (le_trans (le_max_left _ _) hfuel)
    (fun l G d e => .ok (Classical.epsilon fun pf => ∀ tree root, Merkle.merkelize blake ((List.range (2 ^ a * 2 ^ b)).map
      fun x => .elt (enc ((toPoly l).eval (G ^ x)))) = .ok tree → tree[1]? = some root → verify fuel blake pf root G d e 40 = .ok true)) _ ?_⟩
  intro l G tree root hG hl hld t1 t2
  refine ⟨_, rfl, Classical.epsilon_spec (p := fun pf => ∀ tree root, Merkle.merkelize blake ((List.range (2 ^ a * 2 ^ b)).map
      fun x => .elt (enc ((toPoly l).eval (G ^ x)))) = .ok tree → tree[1]? = some root →
        verify fuel blake pf root G (2 ^ a * deg) (2 ^ b) 40 = .ok true) ?_ tree root t1 t2⟩
  have hb2 : 2 ≤ 2 ^ b := by
    calc 2 = 2 ^ 1 := rfl
      _ ≤ _ := Nat.pow_le_pow_right (by omega) c.ext
  have t1' := t1
  rw [← pow_add] at hG hl t1
  obtain ⟨pf, h⟩ := SmoothFri.forge c.modulus blake hbl G (a + b) (by have := c.steps; have := c.ext; omega) (by have := c.size; omega) hG.eq fuel
    (le_trans (le_max_right _ _) hfuel) (FFT.dft G (2 ^ (a + b)) l) (by simp) (2 ^ a * deg) hdeg1
    (by rw [pow_add]; exact Nat.mul_le_mul_left _ hdeg2) (2 ^ b) (.inr hb2) 40 (fun _ => le_rfl) tree root
    (by rw [FFT.dft, List.map_map]; exact t1) t2
  refine ⟨pf, fun tree' root' s1 s2 => ?_⟩
  rw [t1'] at s1
  cases s1
  rw [t2] at s2
  cases s2
  exact h

/-! ### Concrete cases: the 32 powers of 28 modulo 97, and the 128 powers of 9 modulo 257 -/

theorem order_28 : HasOrder (28 : Zp 97) (2 ^ 5) := by
  refine ⟨by norm_num, by decide +kernel, ?_⟩
  intro j h1 h2
  norm_num at h2
  interval_cases j <;> decide +kernel

theorem order_9 : HasOrder (9 : Zp 257) (2 ^ 7) := by
  refine ⟨by norm_num, by decide +kernel, ?_⟩
  intro j h1 h2
  norm_num at h2
  interval_cases j <;> decide +kernel

/-- Every polynomial has a root. -/
theorem exists_root (hp : p ≤ 2 ^ 256) (blake : Bytes → Bytes) (k : Nat) (hk : 2 ≤ k) (U : List (Zp p)) (hU : U.length = 2 ^ k) :
    ∃ root, IsRootOf blake root U := by
  obtain ⟨m, r, h1, h2, -⟩ := tree_of hp blake U k hk hU
  exact ⟨r, m, h1, h2⟩

/-- A proof with one layer, for the bound 20, is made and accepted; the same proof is refused against another root, and for the bound 16.
This meets the hypotheses of `C127_completeness_partial`, `C127_bounds`, `C128_layer`. -/
example : (do
    let f : List (Zp 97) := [3, 1, 4, 1, 5, 9, 2, 6, 5, 3, 5, 8, 9, 7, 9, 3, 2, 3, 8, 4]
    let vals ← FFT.nbFft 100 97 (28 : Zp 97) f
    let m ← Merkle.merkelize sqHash (vals.map fun a => .elt (enc a))
    let root ← pyIdx m 1
    let pf ← prove 100 sqHash f (28 : Zp 97) 20 4 6
    let ok ← verify 100 sqHash pf root (28 : Zp 97) 20 4 6
    .ok (ok, pf.1.length, pf.2.length, (verify 100 sqHash pf (List.replicate 32 0) (28 : Zp 97) 20 4 6).toOption,
      (verify 100 sqHash pf root (28 : Zp 97) 80 4 6).toOption) : Py (Bool × Nat × Nat × Option Bool × Option Bool)).toOption =
    some (true, 1, 8, none, none) := by decide +kernel

/-- This meets the hypotheses of `C127_completeness_partial`, `C128_soundness_refuted`. -/
example : ∃ root : Bytes, (∀ x, (sqHash x).length = 32) ∧ HasOrder (28 : Zp 97) (2 ^ 5) ∧ 20 = 5 * 4 ^ 1 ∧ 20 ≤ 2 ^ 5 ∧
    IsRootOf sqHash root (valuesAt (28 : Zp 97) (2 ^ 5) (toPoly [1, 2, 3])) :=
  let ⟨root, h⟩ := exists_root (p := 97) (by norm_num) sqHash 5 (by norm_num) (valuesAt (28 : Zp 97) (2 ^ 5) (toPoly [1, 2, 3])) (by simp [valuesAt])
  ⟨root, sqHash_length, order_28, rfl, by norm_num, h⟩

/-- The bound 17 is not of the form: the honest proof that `X^16` has degree below 17 is refused. This meets the hypotheses of `C127_bounds`. -/
example : (¬ ∃ r j, 17 = r * 4 ^ j ∧ r ≤ 16) ∧ (do
    let f : List (Zp 97) := List.replicate 16 0 ++ [1]
    let vals ← FFT.nbFft 100 97 (28 : Zp 97) f
    let m ← Merkle.merkelize sqHash (vals.map fun a => .elt (enc a))
    let root ← pyIdx m 1
    let pf ← prove 100 sqHash f (28 : Zp 97) 17 0 6
    verify 100 sqHash pf root (28 : Zp 97) 17 0 6 : Py Bool) = .error .assertion := by
  refine ⟨?_, by decide +kernel⟩
  rintro ⟨r, j, h, hr⟩
  cases j with
  | zero => omega
  | succ j => rw [pow_succ, ← mul_assoc] at h; omega

/-- This meets the hypotheses of `C127_factor_refuted`. -/
example : ∃ root : Bytes, HasOrder (9 : Zp 257) (2 ^ 7) ∧ 68 ≤ 80 ∧ 80 ≤ 2 ^ 7 ∧ 40 < 50 ∧
    IsRootOf sqHash root (valuesAt (9 : Zp 257) (2 ^ 7) (toPoly [1, 2, 3])) :=
  let ⟨root, h⟩ := exists_root (p := 257) (by norm_num) sqHash 7 (by norm_num) (valuesAt (9 : Zp 257) (2 ^ 7) (toPoly [1, 2, 3])) (by simp [valuesAt])
  ⟨root, order_9, by norm_num, by norm_num, by norm_num, h⟩

/-- 5 generates the multiplicative group modulo 97, whose order 96 is `3 * 2^5`. This meets the hypotheses of `C127_order_refuted`. -/
example : ∀ k, ¬ HasOrder (5 : Zp 97) (2 ^ k) := by
  intro k h
  have h96 : orderOf (5 : Zp 97) ∣ 96 := orderOf_dvd_of_pow_eq_one (by decide +kernel)
  rw [h.eq] at h96
  have h32 : (2 ^ k) ∣ 32 := (Nat.Coprime.dvd_of_dvd_mul_right (n := 3) (Nat.Coprime.pow_left _ (by norm_num)) (by simpa using h96))
  have h1 : (5 : Zp 97) ^ 32 = 1 := by
    obtain ⟨c, hc⟩ := h32
    rw [hc, pow_mul, h.2.1, one_pow]
  revert h1
  decide +kernel

/-- A forged proof, in the open: the values of `X^16` at the 32 powers of 28 are proved to be of degree below 8, by giving the four nodes
at depth two of their tree as the last component. This meets the hypotheses of `C128_soundness_refuted`. -/
example : (do
    let vals ← FFT.nbFft 100 97 (28 : Zp 97) (List.replicate 16 0 ++ [1])
    let m ← Merkle.merkelize sqHash (vals.map fun a => .elt (enc a))
    let root ← pyIdx m 1
    verify 100 sqHash ([], (m.drop 4).take 4) root (28 : Zp 97) 8 0 40 : Py Bool) = .ok true := by decide +kernel

/-- This meets the hypotheses of `C128_far`. -/
example : HasOrder (28 : Zp 97) (2 ^ 5) ∧ (X ^ 3 + X : (Zp 97)[X]).degree < (2 ^ (5 - 1) : Nat) :=
  ⟨order_28, lt_of_le_of_lt (degree_add_le _ _) (max_lt (by rw [degree_X_pow]; norm_num) (by rw [degree_X]; norm_num))⟩

/-- The side conditions of `C128_acceptance_partial` hold of the honest proof with one layer: the lengths of its branches and leaves, and
that of its last component. -/
example : (do
    let f : List (Zp 97) := [3, 1, 4, 1, 5, 9, 2, 6, 5, 3, 5, 8, 9, 7, 9, 3, 2, 3, 8, 4]
    let pf ← prove 100 sqHash f (28 : Zp 97) 20 4 6
    .ok (pf.2.length == 2 ^ 3 && pf.2.all (·.length == 32) && pf.1.all fun it => it.2.all fun opened =>
      opened.zipIdx.all fun bj => bj.1.length == (if bj.2 = 0 then 3 else 5) + 1 && bj.1.head?.all (·.length == 32)) : Py Bool) =
    .ok true := by decide +kernel

/-- The hypotheses of C74 and C75 with this test hold of the squaring computation. This meets the hypotheses of `C74_smooth`,
`C75_smooth_refuted`. -/
example : Computation 17 2 2 1 sqStep ∧ IsDegree 1 sqStep 2 ∧ 2 ≤ 2 ^ 2 ∧ 2 ≤ 8 ∧ 4 ≤ 2 ^ 2 * 2 ∧ IsExecution 1 (2 ^ 2) sqStep sqB sqW ∧
    (∀ col ∈ sqW, ∀ out, col.getLast? = some out → out ≠ 0) := by
  refine ⟨sq_computation, sq_isDegree, by norm_num, by norm_num, by norm_num, sq_execution, ?_⟩
  simp only [sqW, List.mem_singleton, forall_eq]
  intro out h
  simp at h
  subst h
  decide +kernel

end Verif.Props
