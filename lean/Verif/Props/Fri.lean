import Verif.Proofs.Fri
import Verif.Props.Apr
/-!
# C95–C99: the FRI protocol
-/

namespace Verif.Props
open Poly PolyUtils ReedSolomon Fri
open Air (bind_iff)
open scoped Polynomial
open Polynomial (C X)

section
variable {p : Nat} [hp : Fact p.Prime] {V F : Type} [AddCommGroup V] [Module (Zp p) V] [Field F] [DecidableEq F]

/-- `AffineSubspaceFRI(field, AffineSpace(Z/p, basis, shift), rho)`, with its number of rounds and challenges. -/
def friObj (p : Nat) [Fact p.Prime] {V F : Type} (basis : List V) (shift : V) (cast : V → F) (rho : Rate) (rounds : Int)
    (challenge : Nat → Py F) : Obj (Zp p) V F :=
  ⟨p, 1, zpIter p (Zp.ofInt (p := p)), basis, shift, cast, rho, rounds, challenge⟩

variable (basis : List V) (shift : V) (cast : V → F) (rho : Rate) (challenge : Nat → Py F)

theorem pyMap_val {α β : Type} (f : α → Py β) (g : α → β) : ∀ l : List α, (∀ a ∈ l, f a = .ok (g a)) → pyMap f l = .ok (l.map g)
  | [], _ => rfl
  | a :: l, h => by
    simp only [pyMap, h a (by simp), pyMap_val f g l fun b hb => h b (by simp [hb]), bind, Except.bind, List.map_cons]

omit [DecidableEq F] in
theorem interp_unique {xs : List F} (hx : xs.Nodup) {a b : F[X]} (ha : a.degree < xs.length) (hb : b.degree < xs.length)
    (h : ∀ x ∈ xs, a.eval x = b.eval x) : a = b := by
  classical
  refine Polynomial.eq_of_degrees_lt_of_eval_finset_eq xs.toFinset ?_ ?_ fun x hx' => h x (List.mem_toFinset.1 hx')
  · rwa [List.toFinset_card_of_nodup hx]
  · rwa [List.toFinset_card_of_nodup hx]

omit [DecidableEq F] in
theorem degree_lt_of_length {r : List F} (hc : Canon r) {n : Nat} (h : r.length ≤ n) (h0 : 0 < n) : (toPoly r).degree < n := by
  refine Polynomial.degree_le_natDegree.trans_lt ?_
  rw [natDegree_toPoly hc]
  exact_mod_cast (show r.length - 1 < n by omega)

/-- **C95** for an int rate and one round: `commit(f)` returns the coefficients of the polynomial of degree less than `|S|` with the
values of `f` on `S`; if `f` is itself such a polynomial, its own.  MISSING: every rate below 1 and every space that needs two
rounds or more (`C95_commit_refuted`). -/
theorem C95_commit_partial (n : Nat) (hn : 1 ≤ n) (hlen : p ^ basis.length ≤ 2 ^ 63 - 1)
    (hind : LinearIndependent (Zp p) basis.get) (hinj : ∀ u v, u - v ∈ Submodule.span (Zp p) {b | b ∈ basis} → cast u = cast v → u = v)
    (x : F) (hx : challenge 0 = .ok x) (f : Fn V F) (val : V → F) (hf : ∀ v, f (.inl v) = .ok (val v)) :
    ∃ c, commit (friObj p basis shift cast (.int n) 1 challenge) f = .ok (some c) ∧ Canon c ∧ (toPoly c).degree < p ^ basis.length ∧
      (∀ v, v - shift ∈ Submodule.span (Zp p) {b | b ∈ basis} → (toPoly c).eval (cast v) = val v) ∧
      ∀ g : F[X], g.degree < p ^ basis.length →
        (∀ v, v - shift ∈ Submodule.span (Zp p) {b | b ∈ basis} → g.eval (cast v) = val v) → toPoly c = g := by
  obtain ⟨items, h1, h2, h3, h4⟩ := C22_affine_space p basis shift
  obtain ⟨q, -, hq, -⟩ := C23_affine_vanishing_partial p cast (basis.take 2) 0
  have hnd := h4.2 hind
  have hnd' : (items.map cast).Nodup := by
    rw [List.nodup_map_iff_inj_on hnd]
    intro u hu v hv huv
    rw [h2] at hu hv
    refine hinj u v ?_ huv
    have := Submodule.sub_mem _ hu hv
    rwa [sub_sub_sub_cancel_right] at this
  have hlen' : items.length = p ^ basis.length := by rw [h3, affineLen, pow_one]
  obtain ⟨r, r1, r2, r3, r4⟩ := lagrangeInterp_spec (items.map cast) (items.map val) hnd' (by simp)
  rw [List.length_map, hlen'] at r3
  have hpos : 0 < p ^ basis.length := pow_pos hp.out.pos _
  have hval : ∀ v, v - shift ∈ Submodule.span (Zp p) {b | b ∈ basis} → (toPoly r).eval (cast v) = val v := by
    intro v hv
    rw [← h2] at hv
    obtain ⟨i, hi, rfl⟩ := List.getElem_of_mem hv
    have := r4 i (by simpa using hi) (by simpa using hi)
    simpa using this
  have hdeg := degree_lt_of_length r2 r3 hpos
  refine ⟨r, ?_, r2, by exact_mod_cast hdeg, hval, fun g hg hgv => ?_⟩
  · have htake : r.take (((n : Int) * ((p ^ basis.length : Nat) : Int)).toNat) = r := by
      refine List.take_of_length_le ?_
      have : ((n : Int) * ((p ^ basis.length : Nat) : Int)).toNat = n * p ^ basis.length := by
        rw [← Nat.cast_mul, Int.toNat_natCast]
      rw [this]
      exact r3.trans (Nat.le_mul_of_pos_left _ hn)
    have hl : affineLenBuiltin p 1 basis = .ok (p ^ basis.length) := by
      simp only [affineLenBuiltin, affineLen, pow_one, if_pos hlen]
    simp only [commit, friObj, checkRate, selectSubspace, evalOnSubspace, bind, Except.bind, hx, hq, h1, hl,
      pyMap_val (fun v => f (.inl v)) val items fun v _ => hf v, r1, htake, if_pos (show (0 : Int) < n by omega),
      if_pos (show (0 : Int) < 1 by norm_num), sub_self, lt_irrefl, if_false]
  · refine interp_unique hnd' (by simpa [hlen'] using hdeg) (by simpa [hlen'] using hg) fun y hy => ?_
    obtain ⟨v, hv, rfl⟩ := List.mem_map.1 hy
    rw [h2] at hv
    rw [hval v hv, hgv v hv]

omit hp in
/-- **C95** fails for every rate that is not an int, so for every rate below 1, and whenever two rounds or more are needed: if
`commit` returns coefficients, the rate is an int `≥ 1` and there is one round. -/
theorem C95_commit_refuted {K : Type} [SMul K V] (o : Obj K V F) (f : Fn V F) (c : List F) (h : commit o f = .ok (some c)) :
    (∃ n : Nat, 1 ≤ n ∧ o.rho = .int n) ∧ o.rounds = 1 := by
  unfold commit at h
  obtain ⟨u, h1, h⟩ := (bind_iff _ _ _).1 h
  obtain ⟨len, h2, h⟩ := (bind_iff _ _ _).1 h
  split_ifs at h with h3 h4
  · obtain ⟨x, -, h⟩ := (bind_iff _ _ _).1 h
    obtain ⟨q, -, h⟩ := (bind_iff _ _ _).1 h
    obtain ⟨L1, -, h⟩ := (bind_iff _ _ _).1 h
    obtain ⟨e0, -, h⟩ := (bind_iff _ _ _).1 h
    obtain ⟨y, -, h⟩ := (bind_iff _ _ _).1 h
    cases h
  · obtain ⟨x, -, h⟩ := (bind_iff _ _ _).1 h
    obtain ⟨q, -, h⟩ := (bind_iff _ _ _).1 h
    obtain ⟨L1, -, h⟩ := (bind_iff _ _ _).1 h
    obtain ⟨e, -, h⟩ := (bind_iff _ _ _).1 h
    obtain ⟨vals, -, h⟩ := (bind_iff _ _ _).1 h
    obtain ⟨interp, -, h⟩ := (bind_iff _ _ _).1 h
    refine ⟨?_, by omega⟩
    cases hr : o.rho with
    | int n =>
      rw [hr, checkRate] at h1
      split_ifs at h1 with hn
      exact ⟨n.toNat, by omega, by rw [Int.toNat_of_nonneg hn.le]⟩
    | other b => rw [hr] at h; cases h
  · cases h

/-! ### query -/

omit hp in
/-- **C96** fails whenever two rounds or more are needed: `query` raises, whatever the prover did. -/
theorem C96_rounds_refuted {K : Type} [SMul K V] (o : Obj K V F) (hr : 2 ≤ o.rounds) (f : List (Fn V F)) (coeff : Option (List F))
    (draw : Nat → Nat) (b : Bool) : query o f coeff draw ≠ .ok b := by
  intro h
  unfold query at h
  obtain ⟨u, -, h⟩ := (bind_iff _ _ _).1 h
  obtain ⟨len, -, h⟩ := (bind_iff _ _ _).1 h
  rw [if_pos (by omega)] at h
  obtain ⟨q, -, h⟩ := (bind_iff _ _ _).1 h
  obtain ⟨L1, -, h⟩ := (bind_iff _ _ _).1 h
  cases h

omit hp [AddCommGroup V] [Module (Zp p) V] in
theorem lenBuiltin (hlen : p ^ basis.length ≤ 2 ^ 63 - 1) : affineLenBuiltin p 1 basis = .ok (p ^ basis.length) := by
  simp only [affineLenBuiltin, affineLen, pow_one, if_pos hlen]

omit [AddCommGroup V] in
theorem foldLoop_total (f : Fn V F) (g : F → F) (hf : ∀ y, f (.inr y) = .ok (g y)) (L0 : List V) (x : F) :
    ∀ (ys : List F) (last : Option F), ∃ r, foldLoop cast f L0 x ys last = .ok r
  | [], last => ⟨last, rfl⟩
  | y :: ys, last => by
    obtain ⟨P, hP, -⟩ := lagrangeInterp_sum (L0.map fun l => y + cast l) ((L0.map fun l => y + cast l).map g) (by simp)
    obtain ⟨r, hr⟩ := foldLoop_total f g hf L0 x ys (some (call P x))
    exact ⟨r, by simp only [foldLoop, pyMap_val (fun c => f (.inr c)) g _ fun c _ => hf c, hP, bind, Except.bind, hr]⟩

/-- **C95**, **C96**, the exceptions: whatever the prover's function, the proof and the draws, both methods raise `ValueError` for a rate
that is not positive, `OverflowError` for a space too large for `len`, and `AttributeError` when two rounds or more are
needed; with one round and a rate that is not an int, `commit` raises `TypeError`. -/
theorem C95_errors_refuted (f : Fn V F) (val : V → F) (g : F → F) (hf : ∀ v, f (.inl v) = .ok (val v)) (hf' : ∀ y, f (.inr y) = .ok (g y))
    (fs : List (Fn V F)) (coeff : Option (List F)) (draw : Nat → Nat) (rounds : Int) (x : F) (hx : challenge 0 = .ok x) :
    let o := friObj p basis shift cast rho rounds challenge
    let positive := (∃ n : Int, 0 < n ∧ rho = .int n) ∨ rho = .other true
    (¬ positive → commit o f = .error .valueError ∧ query o fs coeff draw = .error .valueError) ∧
    (positive → 2 ^ 63 ≤ p ^ basis.length → commit o f = .error .overflow ∧ query o fs coeff draw = .error .overflow) ∧
    (positive → p ^ basis.length < 2 ^ 63 → 2 ≤ rounds → commit o f = .error .attributeError ∧ query o fs coeff draw = .error .attributeError) ∧
    (positive → p ^ basis.length < 2 ^ 63 → rounds = 1 → (∀ n, rho ≠ .int n) → commit o f = .error .typeError) := by
  intro o positive
  have hpos : positive → checkRate rho = .ok () := by
    rintro (⟨n, hn, h⟩ | h)
    · simp [h, checkRate, hn]
    · simp [h, checkRate]
  have hnot : ¬ positive → checkRate rho = .error .valueError := by
    intro h
    cases hr : rho with
    | int n =>
      have : ¬ 0 < n := fun hn => h (Or.inl ⟨n, hn, hr⟩)
      simp [checkRate, this]
    | other b =>
      cases b with
      | true => exact absurd (Or.inr hr) h
      | false => simp [checkRate]
  obtain ⟨q, items0, hq, hi0, -⟩ := C23_affine_vanishing_partial p cast (basis.take 2) 0
  obtain ⟨items, hi, -⟩ := C22_affine_space p basis shift
  refine ⟨fun h => ?_, fun h hl => ?_, fun h hl hr => ?_, fun h hl hr hn => ?_⟩
  · constructor <;> simp only [o, commit, query, friObj, hnot h, bind, Except.bind]
  · have : affineLenBuiltin p 1 basis = .error .overflow := by
      simp only [affineLenBuiltin, affineLen, pow_one]
      exact if_neg (by omega)
    constructor <;> simp only [o, commit, query, friObj, hpos h, this, bind, Except.bind]
  · have hl' := lenBuiltin (p := p) basis (by omega)
    obtain ⟨r, hr'⟩ := foldLoop_total cast f g hf' items0 x (items.map fun v => call q (cast v)) none
    constructor
    · simp only [o, commit, friObj, hpos h, hl', bind, Except.bind, hx, selectSubspace, hq, evalOnSubspace, hi, hi0, hr',
        if_pos (show 0 < rounds by omega), if_pos (show 0 < rounds - 1 by omega)]
    · simp only [o, query, friObj, hpos h, hl', bind, Except.bind, selectSubspace, hq, evalOnSubspace, hi,
        if_pos (show 0 < rounds - 1 by omega)]
  · have hl' := lenBuiltin (p := p) basis (by omega)
    obtain ⟨P, hP, -⟩ := lagrangeInterp_sum (items.map cast) (items.map val) (by simp)
    have hrho : rho = .other true := by
      rcases h with ⟨n, -, h⟩ | h
      · exact absurd h (hn n)
      · exact h
    subst hr
    simp only [o, commit, friObj, hl', bind, Except.bind, hx, selectSubspace, hq, evalOnSubspace, hi,
      pyMap_val (fun v => f (.inl v)) val items fun v _ => hf v, hP, hrho, checkRate, if_true, if_pos (show (0 : Int) < 1 by norm_num), sub_self, lt_irrefl, if_false]

/-- The polynomial `query` appends to `f` is 0 at every point it is asked for, whatever the coefficients in the proof. -/
theorem query_last (hadd : ∀ a b, cast (a + b) = cast a + cast b) (hind : LinearIndependent (Zp p) basis.get) (hb : basis ≠ [])
    {q : List F} (hq : affineVanishing (zpIter p (Zp.ofInt (p := p))) cast (basis.take 2) 0 = .ok q) {items : List V}
    (hi : affineIter (zpIter p (Zp.ofInt (p := p))) basis shift = .ok items) (ys : List F) (hl : ys.length = items.length) :
    ∃ r, lagrangeInterp (items.map fun v => call q (cast v)) ys = .ok r ∧ ∀ v ∈ items, call r (call q (cast v)) = 0 := by
  obtain ⟨items', h1, h2, h3, h4⟩ := C22_affine_space p basis shift
  rw [hi] at h1
  cases h1
  have hnd := h4.2 hind
  obtain ⟨b, bs, rfl⟩ := List.exists_cons_of_ne_nil hb
  have hb0 : b ≠ 0 := by simpa using hind.ne_zero (⟨0, by simp⟩ : Fin (b :: bs).length)
  obtain ⟨r, r1, -, r3⟩ := lagrangeInterp_twice (items.map fun v => call q (cast v)) ys (by simpa using hl) (by
    intro x hx
    obtain ⟨v, hv, rfl⟩ := List.mem_map.1 hx
    have hv' : v + b ∈ items := by
      rw [h2] at hv ⊢
      rw [add_sub_right_comm]
      exact Submodule.add_mem _ hv (Submodule.subset_span (by simp))
    have hsub : [v, v + b].Subperm items := List.subperm_of_subset (by simpa using hb0) (by simp [hv, hv'])
    have ht : call q (cast (v + b)) = call q (cast v) :=
      vanish_translate hadd (indep_take hind 2) hq v b (Submodule.subset_span (by simp))
    obtain ⟨l, hp1, hp2⟩ := hsub
    refine le_trans ?_ ((hp2.map fun v => call q (cast v)).count_le _)
    rw [(hp1.map fun v => call q (cast v)).count_eq]
    simp [ht])
  refine ⟨r, r1, fun v hv => ?_⟩
  rw [call_eq_eval r]
  exact r3 _ (List.mem_map.2 ⟨v, hv, rfl⟩)

/-- One test of `query`, once the appended polynomial is known to be 0: draw an element, interpolate `f` on its coset, and go on
if the value at the challenge is not 0. -/
def oneTest {V F : Type} [AddCommGroup V] [Field F] [DecidableEq F] (cast : V → F) (f0 : Fn V F) (items L0 : List V) (x : F)
    (n : Nat) : Py Bool :=
  match pick items n with
  | none => .error .indexError
  | some s => do
    let evals ← pyMap (fun c => f0 (.inl c)) (L0.map fun l => s + l)
    let P ← lagrangeInterp ((L0.map fun l => s + l).map cast) evals
    .ok (!decide (0 = call P x))

omit hp [Module (Zp p) V] in
theorem queryOnce_eq (o : Obj (Zp p) V F) (f0 : Fn V F) (last q : List F) (items L0 : List V) (x : F) (n : Nat)
    (h0 : ∀ v ∈ items, call last (call q (o.cast v)) = 0) :
    queryOnce o ([f0] ++ [fun e => .ok (call last (Sum.elim o.cast id e))]) q items L0 x n = oneTest o.cast f0 items L0 x n := by
  unfold queryOnce oneTest
  cases hs : pick items n with
  | none => rfl
  | some s =>
    have hm : s ∈ items := by
      unfold pick at hs
      split_ifs at hs
      exact List.mem_of_getElem? hs
    simp [pyIdx, bind, Except.bind, h0 s hm]

theorem query_one (hadd : ∀ a b, cast (a + b) = cast a + cast b) (hind : LinearIndependent (Zp p) basis.get)
    (hb : basis ≠ []) (f0 : Fn V F) (draw : Nat → Nat) (coeff : List F) {items items0 : List V}
    (h1 : affineIter (zpIter p (Zp.ofInt (p := p))) basis shift = .ok items)
    (g1 : affineIter (zpIter p (Zp.ofInt (p := p))) (basis.take 2) (0 : V) = .ok items0) :
    query (friObj p basis shift cast rho 1 challenge) [f0] (some coeff) draw = (do
      checkRate rho
      let _ ← affineLenBuiltin p 1 basis
      let x ← challenge 0
      let b ← oneTest cast f0 items items0 x (draw 0)
      if b then oneTest cast f0 items items0 x (draw 1) else .ok false) := by
  obtain ⟨q, -, hq, -⟩ := C23_affine_vanishing_partial p cast (basis.take 2) 0
  obtain ⟨r, r1, r2⟩ := query_last basis shift cast hadd hind hb hq h1
    ((items.map fun v => call q (cast v)).map fun v => call (ctor coeff) v) (by simp)
  unfold query
  cases hc : checkRate rho with
  | error e => simp [friObj, hc, bind, Except.bind]
  | ok u =>
  cases hl : affineLenBuiltin p 1 basis with
  | error e => simp [friObj, hc, hl, bind, Except.bind]
  | ok len =>
  cases hx : challenge 0 with
  | error e =>
    simp only [friObj, hc, hl, hx, selectSubspace, evalOnSubspace, hq, h1, r1, bind, Except.bind, sub_self, lt_irrefl, if_false,
      if_pos (show (0 : Int) < 1 by norm_num)]
  | ok x =>
    have hq1 := queryOnce_eq (friObj p basis shift cast rho 1 challenge) f0 r q items items0 x
    simp only [friObj] at hq1
    simp only [friObj, hc, hl, hx, selectSubspace, evalOnSubspace, hq, h1, g1, r1, bind, Except.bind, sub_self, lt_irrefl, if_false,
      if_pos (show (0 : Int) < 1 by norm_num), hq1 _ r2]

/-- **C97** fails with one round: the verdict of `query` does not depend on the coefficients in the proof, whatever the function
and the random draws. -/
theorem C97_soundness_refuted (hadd : ∀ a b, cast (a + b) = cast a + cast b) (hind : LinearIndependent (Zp p) basis.get)
    (hb : basis ≠ []) (f0 : Fn V F) (draw : Nat → Nat) (coeff coeff' : List F) :
    query (friObj p basis shift cast rho 1 challenge) [f0] (some coeff) draw =
      query (friObj p basis shift cast rho 1 challenge) [f0] (some coeff') draw := by
  obtain ⟨items, h1, -⟩ := C22_affine_space p basis shift
  obtain ⟨items0, g1, -⟩ := C22_affine_space p (basis.take 2) (0 : V)
  rw [query_one basis shift cast rho challenge hadd hind hb f0 draw coeff h1 g1,
    query_one basis shift cast rho challenge hadd hind hb f0 draw coeff' h1 g1]

/-- The outcome of one test when `f` is a polynomial of degree less than the size of the small subspace. -/
theorem oneTest_poly (hadd : ∀ a b, cast (a + b) = cast a + cast b) (hind : LinearIndependent (Zp p) basis.get)
    (hinj : ∀ v, v ∈ Submodule.span (Zp p) {b | b ∈ basis} → cast v = 0 → v = 0)
    (g : F[X]) (hg : g.degree < p ^ min 2 basis.length) (f0 : Fn V F) (hf : ∀ v, f0 (.inl v) = .ok (g.eval (cast v)))
    {items items0 : List V} (h1 : affineIter (zpIter p (Zp.ofInt (p := p))) basis shift = .ok items)
    (g1 : affineIter (zpIter p (Zp.ofInt (p := p))) (basis.take 2) (0 : V) = .ok items0) (x : F) (n : Nat)
    (hn : 1 ≤ n ∧ n ≤ p ^ basis.length) : oneTest cast f0 items items0 x n = .ok (decide (g.eval x ≠ 0)) := by
  obtain ⟨items', k1, -, k3, -⟩ := C22_affine_space p basis shift
  rw [h1] at k1
  cases k1
  obtain ⟨items', k1, k2, k3', k4⟩ := C22_affine_space p (basis.take 2) (0 : V)
  rw [g1] at k1
  cases k1
  rw [affineLen, pow_one] at k3 k3'
  rw [List.length_take] at k3'
  have hp1 : n - 1 < items.length := by omega
  have hpick : pick items n = some items[n - 1] := by
    rw [pick, if_neg (by omega), List.getElem?_eq_getElem hp1]
  set s := items[n - 1]
  have hnd : ((items0.map fun l => s + l).map cast).Nodup := by
    rw [List.map_map, List.nodup_map_iff_inj_on (k4.2 (indep_take hind 2))]
    intro u hu v hv huv
    simp only [Function.comp, hadd, add_right_inj] at huv
    rw [k2, sub_zero] at hu hv
    have hsp : Submodule.span (Zp p) {b | b ∈ basis.take 2} ≤ Submodule.span (Zp p) {b | b ∈ basis} :=
      Submodule.span_mono fun b hb => List.mem_of_mem_take hb
    have h0 : cast 0 = 0 := by have := hadd 0 0; simpa using this
    have hneg : cast (u - v) = 0 := by
      have := hadd (u - v) v
      rw [sub_add_cancel, huv] at this
      simpa using this.symm
    exact sub_eq_zero.1 (hinj _ (Submodule.sub_mem _ (hsp hu) (hsp hv)) hneg)
  obtain ⟨r, r1, r2, r3, r4⟩ := lagrangeInterp_spec ((items0.map fun l => s + l).map cast)
    ((items0.map fun l => s + l).map fun v => g.eval (cast v)) hnd (by simp)
  have hpos : 0 < p ^ min 2 basis.length := pow_pos hp.out.pos _
  have hlen : ((items0.map fun l => s + l).map cast).length = p ^ min 2 basis.length := by simp [k3']
  have hr : toPoly r = g := by
    refine interp_unique hnd ?_ ?_ fun y hy => ?_
    · rw [hlen]; exact degree_lt_of_length r2 (by rw [← hlen]; exact r3) hpos
    · rw [hlen]; exact_mod_cast hg
    · obtain ⟨i, hi, rfl⟩ := List.getElem_of_mem hy
      have := r4 i hi (by simpa using hi)
      rw [this]
      simp
  simp only [oneTest, hpick, pyMap_val (fun c => f0 (.inl c)) (fun v => g.eval (cast v)) _ fun v _ => hf v, r1, bind, Except.bind]
  rw [call_eq_eval, hr]
  by_cases h : g.eval x = 0
  · simp [h]
  · simp [h, Ne.symm h]

/-- **C97** fails, the exact verdict with one round: on a polynomial `g` of degree less than the size of the small subspace, and draws
that select an element, `query` returns True exactly when `g` is not 0 at the challenge, whatever the proof. -/
theorem C97_verdict_refuted (hadd : ∀ a b, cast (a + b) = cast a + cast b) (hind : LinearIndependent (Zp p) basis.get)
    (hinj : ∀ v, v ∈ Submodule.span (Zp p) {b | b ∈ basis} → cast v = 0 → v = 0) (hb : basis ≠ [])
    (hlen : p ^ basis.length ≤ 2 ^ 63 - 1) (hrho : checkRate rho = .ok ()) (x : F) (hx : challenge 0 = .ok x)
    (g : F[X]) (hg : g.degree < p ^ min 2 basis.length) (f0 : Fn V F) (hf : ∀ v, f0 (.inl v) = .ok (g.eval (cast v)))
    (coeff : List F) (draw : Nat → Nat) (hd : ∀ j, 1 ≤ draw j ∧ draw j ≤ p ^ basis.length) :
    query (friObj p basis shift cast rho 1 challenge) [f0] (some coeff) draw = .ok (decide (g.eval x ≠ 0)) := by
  obtain ⟨items, h1, -⟩ := C22_affine_space p basis shift
  obtain ⟨items0, g1, -⟩ := C22_affine_space p (basis.take 2) (0 : V)
  rw [query_one basis shift cast rho challenge hadd hind hb f0 draw coeff h1 g1]
  simp only [hrho, lenBuiltin basis hlen, hx, bind, Except.bind,
    oneTest_poly basis shift cast hadd hind hinj g hg f0 hf h1 g1 x _ (hd _)]
  by_cases h : g.eval x = 0 <;> simp [h]

/-- **C97** fails with no round: `query` returns True for all functions and proofs. -/
theorem C97_no_round_refuted (hlen : p ^ basis.length ≤ 2 ^ 63 - 1) (hrho : checkRate rho = .ok ()) (rounds : Int) (hr : rounds ≤ 0)
    (f : List (Fn V F)) (coeff : List F) (draw : Nat → Nat) :
    query (friObj p basis shift cast rho rounds challenge) f (some coeff) draw = .ok true := by
  obtain ⟨items, h1, -⟩ := C22_affine_space p basis shift
  obtain ⟨q, -, hq, -⟩ := C23_affine_vanishing_partial p cast (basis.take 2) 0
  obtain ⟨r, r1, -⟩ := lagrangeInterp_sum (items.map fun v => call q (cast v))
    ((items.map fun v => call q (cast v)).map fun v => call (ctor coeff) v) (by simp)
  simp only [query, friObj, hrho, lenBuiltin basis hlen, selectSubspace, evalOnSubspace, hq, h1, r1, bind, Except.bind,
    if_neg (show ¬ 0 < rounds - 1 by omega)]
  exact if_neg (show ¬ 0 < rounds by omega)

/-- **C96** with one round and an int rate, for a polynomial `g` of degree less than the size of the small subspace that is not 0 at
the challenge: what `commit` returns is accepted, provided the draws select an element.  MISSING: every other case
(`C96_completeness_refuted`, `C96_no_round_refuted`, `C96_rounds_refuted`). -/
theorem C96_completeness_partial (hadd : ∀ a b, cast (a + b) = cast a + cast b) (hind : LinearIndependent (Zp p) basis.get)
    (hinj : ∀ v, v ∈ Submodule.span (Zp p) {b | b ∈ basis} → cast v = 0 → v = 0) (hb : basis ≠ [])
    (hlen : p ^ basis.length ≤ 2 ^ 63 - 1) (n : Nat) (hn : 1 ≤ n) (x : F) (hx : challenge 0 = .ok x)
    (g : F[X]) (hg : g.degree < p ^ min 2 basis.length) (hgx : g.eval x ≠ 0) (f0 : Fn V F)
    (hf : ∀ v, f0 (.inl v) = .ok (g.eval (cast v))) (draw : Nat → Nat) (hd : ∀ j, 1 ≤ draw j ∧ draw j ≤ p ^ basis.length) :
    ∃ c, commit (friObj p basis shift cast (.int n) 1 challenge) f0 = .ok (some c) ∧ toPoly c = g ∧
      query (friObj p basis shift cast (.int n) 1 challenge) [f0] (some c) draw = .ok true := by
  have hsub : ∀ u v, cast (u - v) = cast u - cast v := fun u v => by
    have := hadd (u - v) v
    rw [sub_add_cancel] at this
    rw [this, add_sub_cancel_right]
  obtain ⟨c, h1, -, -, -, h5⟩ := C95_commit_partial basis shift cast challenge n hn hlen hind (fun u v huv h =>
    sub_eq_zero.1 (hinj _ huv (by rw [hsub, h, sub_self]))) x hx f0 (fun v => g.eval (cast v)) hf
  refine ⟨c, h1, h5 g (lt_of_lt_of_le hg ?_) fun v _ => rfl, ?_⟩
  · exact_mod_cast Nat.pow_le_pow_right hp.out.pos (min_le_right _ _)
  · rw [C97_verdict_refuted basis shift cast (.int n) challenge hadd hind hinj hb hlen (by simp [checkRate]; omega) x hx g hg f0 hf c
      draw hd]
    simp [hgx]

/-- **C96** fails with no round: `commit` returns None, on which `query` raises `TypeError`. -/
theorem C96_no_round_refuted (hlen : p ^ basis.length ≤ 2 ^ 63 - 1) (hrho : checkRate rho = .ok ()) (rounds : Int)
    (hr : rounds ≤ 0) (f : Fn V F) (draw : Nat → Nat) :
    commit (friObj p basis shift cast rho rounds challenge) f = .ok none ∧
    query (friObj p basis shift cast rho rounds challenge) [f] none draw = .error .typeError := by
  obtain ⟨q, -, hq, -⟩ := C23_affine_vanishing_partial p cast (basis.take 2) 0
  constructor
  · simp only [commit, friObj, hrho, lenBuiltin basis hlen, bind, Except.bind]
    exact if_neg (show ¬ 0 < rounds by omega)
  · simp only [query, friObj, hrho, lenBuiltin basis hlen, bind, Except.bind, selectSubspace, hq,
      if_neg (show ¬ 0 < rounds - 1 by omega)]

/-- **C96** fails with one round: for the codeword 0, whatever the proof and the draws, `query` does not return True; it returns
False as soon as the first draw selects an element, and raises `IndexError` otherwise. -/
theorem C96_completeness_refuted (hadd : ∀ a b, cast (a + b) = cast a + cast b) (hind : LinearIndependent (Zp p) basis.get)
    (hinj : ∀ v, v ∈ Submodule.span (Zp p) {b | b ∈ basis} → cast v = 0 → v = 0) (hb : basis ≠ [])
    (hlen : p ^ basis.length ≤ 2 ^ 63 - 1) (hrho : checkRate rho = .ok ()) (x : F) (hx : challenge 0 = .ok x) (coeff : List F)
    (draw : Nat → Nat) :
    query (friObj p basis shift cast rho 1 challenge) [fun _ => .ok 0] (some coeff) draw =
      if 1 ≤ draw 0 ∧ draw 0 ≤ p ^ basis.length then .ok false else .error .indexError := by
  obtain ⟨items, h1, -, h3, -⟩ := C22_affine_space p basis shift
  obtain ⟨items0, g1, -⟩ := C22_affine_space p (basis.take 2) (0 : V)
  rw [query_one basis shift cast rho challenge hadd hind hb _ draw coeff h1 g1]
  rw [affineLen, pow_one] at h3
  split_ifs with hd
  · simp only [hrho, lenBuiltin basis hlen, hx, bind, Except.bind,
      oneTest_poly basis shift cast hadd hind hinj 0 (by rw [Polynomial.degree_zero]; exact WithBot.bot_lt_coe _) (fun _ => .ok 0)
        (by simp) h1 g1 x _ hd]
    simp
  · have : pick items (draw 0) = none := by
      unfold pick
      split_ifs with h0
      · rfl
      · exact List.getElem?_eq_none (by omega)
    simp only [hrho, lenBuiltin basis hlen, hx, bind, Except.bind, oneTest, this]

/-! ### The helpers -/

/-- **C98**. `HextoBin` returns the binary digits, most significant first and without leading zeros. -/
theorem C98_hex_to_bin (num : Nat) :
    ∃ l, hexToBin num = .ok l ∧ (∀ b ∈ l, b = 0 ∨ b = 1) ∧ l.head? ≠ some 0 ∧ Nat.ofDigits 2 l.reverse = num := by
  refine ⟨_, hexToBin_eq num, fun b hb => ?_, ?_, ?_⟩
  · have := Nat.digits_lt_base (b := 2) (by norm_num) (List.mem_reverse.1 hb)
    omega
  · rw [List.head?_reverse]
    intro h
    have hne : Nat.digits 2 num ≠ [] := by rintro h'; rw [h'] at h; simp at h
    rw [List.getLast?_eq_getLast_of_ne_nil hne] at h
    have h0 : num ≠ 0 := by rintro rfl; simp at hne
    exact Nat.getLast_digit_ne_zero 2 h0 (by injection h)
  · rw [List.reverse_reverse, Nat.ofDigits_digits]

omit [AddCommGroup V] [Module (Zp p) V] [Field F] [DecidableEq F] in
/-- **C98**. For an extension field, `select_random` returns an element for every string, which depends on the string through the
digest only: the value, at the generator of the field, of the polynomial whose coefficients are the binary digits of the digest, most
significant first.  MISSING: prime fields (`C98_select_random_refuted`). -/
theorem C98_select_random_partial (f : List (Zp p)) [FF.IsModulus f] (digest : String → Nat) (x : String) :
    ∃ (c : FF.Fq f) (bits : List Nat), selectRandom (some fun l : List (Zp p) => Apr.castHom f (CPoly.mk l)) digest x = .ok c ∧
      Nat.ofDigits 2 bits.reverse = digest x ∧ (∀ b ∈ bits, b = 0 ∨ b = 1) ∧
      c.val = ∑ i ∈ Finset.range bits.length, ((bits.getD i 0 : Nat) : AdjoinRoot (toPoly f)) * AdjoinRoot.root (toPoly f) ^ i := by
  obtain ⟨bits, h1, h2, -, h4⟩ := C98_hex_to_bin (digest x)
  refine ⟨Apr.castHom f (CPoly.mk (ctor (bits.map fun b : Nat => ((b : Nat) : Zp p)))), bits, by
    simp only [selectRandom, h1, bind, Except.bind], h4, h2, ?_⟩
  rw [Apr.castHom_apply, FF.Fq.mk_val]
  change AdjoinRoot.mk _ (CPoly.val (CPoly.mk _)) = _
  rw [CPoly.val_mk, toPoly_ctor, show toPoly (bits.map fun b : Nat => ((b : Nat) : Zp p)) = ∑ i ∈ Finset.range _, _ from rfl, map_sum,
    List.length_map]
  refine Finset.sum_congr rfl fun i hi => ?_
  rw [map_mul, map_pow, AdjoinRoot.mk_X, AdjoinRoot.mk_C]
  congr 1
  rw [show (List.map (fun b : Nat => ((b : Nat) : Zp p)) bits).getD i 0 = ((bits.getD i 0 : Nat) : Zp p) by
    simp [List.getD_eq_getElem?_getD, List.getElem?_map]
    cases bits[i]? <;> simp, map_natCast]

omit hp [AddCommGroup V] [Module (Zp p) V] [Field F] [DecidableEq F] in
/-- **C98** fails for every prime field: `select_random` raises `TypeError`. -/
theorem C98_select_random_refuted {K : Type} [Field K] [DecidableEq K] (digest : String → Nat) (x : String) :
    selectRandom (K := K) (F := F) none digest x = .error .typeError := by
  simp only [selectRandom, hexToBin_eq, bind, Except.bind]

/-- **C99**, spaces through 0: the elements of `select_subspace(space, eta)` are the combinations of the first `eta` basis elements, each
once, and they belong to the space.  MISSING: shifts outside the span (`C99_subspace_refuted`). -/
theorem C99_subspace_partial (eta : Nat) (hind : LinearIndependent (Zp p) basis.get)
    (hs : shift ∈ Submodule.span (Zp p) {b | b ∈ basis}) :
    ∃ sub items, affineIter (zpIter p (Zp.ofInt (p := p))) (selectSubspace basis eta).1 (selectSubspace basis eta).2 = .ok sub ∧
      affineIter (zpIter p (Zp.ofInt (p := p))) basis shift = .ok items ∧ sub.Nodup ∧ sub.length = p ^ min eta basis.length ∧
      (∀ v, v ∈ sub ↔ v ∈ Submodule.span (Zp p) {b | b ∈ basis.take eta}) ∧ ∀ v ∈ sub, v ∈ items := by
  obtain ⟨items, h1, h2, -, -⟩ := C22_affine_space p basis shift
  obtain ⟨sub, g1, g2, g3, g4⟩ := C22_affine_space p (basis.take eta) (0 : V)
  rw [affineLen, pow_one, List.length_take] at g3
  refine ⟨sub, items, g1, h1, g4.2 (indep_take hind eta), g3, fun v => by rw [g2, sub_zero], fun v hv => ?_⟩
  rw [g2, sub_zero] at hv
  rw [h2]
  exact Submodule.sub_mem _ (Submodule.span_mono (fun b hb => List.mem_of_mem_take hb) hv) hs

/-- **C99** fails for every other shift: no element of `select_subspace(space, eta)` belongs to the space. -/
theorem C99_subspace_refuted (eta : Nat) (hs : shift ∉ Submodule.span (Zp p) {b | b ∈ basis}) :
    ∃ sub items, affineIter (zpIter p (Zp.ofInt (p := p))) (selectSubspace basis eta).1 (selectSubspace basis eta).2 = .ok sub ∧
      affineIter (zpIter p (Zp.ofInt (p := p))) basis shift = .ok items ∧ sub ≠ [] ∧ ∀ v ∈ sub, v ∉ items := by
  obtain ⟨items, h1, h2, -, -⟩ := C22_affine_space p basis shift
  obtain ⟨sub, g1, g2, g3, g4⟩ := C22_affine_space p (basis.take eta) (0 : V)
  refine ⟨sub, items, g1, h1, ?_, fun v hv hvi => hs ?_⟩
  · rintro rfl
    have := (g2 0).2 (by simp)
    simp at this
  · rw [g2, sub_zero] at hv
    rw [h2] at hvi
    have := Submodule.sub_mem _ (Submodule.span_mono (fun b hb => List.mem_of_mem_take hb) hv) hvi
    rwa [sub_sub_cancel] at this

/-- **C100**. The folding map of FRI: `eval_on_subspace(q, space)`, for `q` the vanishing polynomial of `select_subspace(space, eta)`,
lists one value per element of the space, in order; two elements get the same value exactly when they lie in the same coset of
the subspace. -/
theorem C100_folding (eta : Nat) (hadd : ∀ a b, cast (a + b) = cast a + cast b) (hind : LinearIndependent (Zp p) basis.get)
    (hinj : ∀ v, v ∈ Submodule.span (Zp p) {b | b ∈ basis} → cast v = 0 → v = 0) :
    ∃ q items vals, affineVanishing (zpIter p (Zp.ofInt (p := p))) cast (selectSubspace basis eta).1 (selectSubspace basis eta).2 =
        .ok q ∧ affineIter (zpIter p (Zp.ofInt (p := p))) basis shift = .ok items ∧
      evalOnSubspace (zpIter p (Zp.ofInt (p := p))) cast q basis shift = .ok vals ∧ vals.length = items.length ∧
      ∀ (i j : Nat) (u v : V), items[i]? = some u → items[j]? = some v →
        (vals[i]? = vals[j]? ↔ u - v ∈ Submodule.span (Zp p) {b | b ∈ basis.take eta}) := by
  obtain ⟨items, h1, h2, -, -⟩ := C22_affine_space p basis shift
  obtain ⟨sub, g1, g2, g3, g4⟩ := C22_affine_space p (basis.take eta) (0 : V)
  obtain ⟨q, sub', k1, k2, -, k4, k5, k6, -⟩ := C23_affine_vanishing_partial p cast (basis.take eta) 0
  rw [g1] at k2
  cases k2
  have hsp : Submodule.span (Zp p) {b | b ∈ basis.take eta} ≤ Submodule.span (Zp p) {b | b ∈ basis} :=
    Submodule.span_mono fun b hb => List.mem_of_mem_take hb
  have hsub : ∀ u v, cast (u - v) = cast u - cast v := fun u v => by
    have := hadd (u - v) v
    rw [sub_add_cancel] at this
    rw [this, add_sub_cancel_right]
  refine ⟨q, items, items.map fun v => call q (cast v), k1, h1, by simp only [evalOnSubspace, h1, bind, Except.bind], by simp, ?_⟩
  intro i j u v hu hv
  rw [List.getElem?_map, List.getElem?_map, hu, hv, Option.map_some, Option.map_some, Option.some_inj]
  have hu' := (h2 u).1 (List.mem_of_getElem? hu)
  have hv' := (h2 v).1 (List.mem_of_getElem? hv)
  constructor
  · intro he
    rw [call_eq_eval, call_eq_eval] at he
    have hnd : (sub.map fun w => cast (v + w)).Nodup := by
      rw [List.nodup_map_iff_inj_on (g4.2 (indep_take hind eta))]
      intro a ha b hb hab
      rw [g2, sub_zero] at ha hb
      rw [hadd, hadd, add_right_inj] at hab
      exact sub_eq_zero.1 (hinj _ (Submodule.sub_mem _ (hsp ha) (hsp hb)) (by rw [hsub, hab, sub_self]))
    have hdeg : (toPoly q).natDegree = sub.length := by rw [k5, ← g3]
    by_contra hcon
    have hnd2 : (cast u :: sub.map fun w => cast (v + w)).Nodup := by
      refine List.nodup_cons.2 ⟨fun hm => hcon ?_, hnd⟩
      obtain ⟨w, hw, hwe⟩ := List.mem_map.1 hm
      rw [g2, sub_zero] at hw
      have : u - (v + w) = 0 := by
        refine hinj _ ?_ (by rw [hsub, hwe, sub_self])
        have := Submodule.sub_mem _ (Submodule.sub_mem _ hu' hv') (hsp hw)
        rwa [sub_sub_sub_cancel_right, sub_sub] at this
      rw [sub_eq_zero] at this
      rw [this, add_sub_cancel_left]
      exact hw
    have hzero : toPoly q - C ((toPoly q).eval (cast v)) = 0 := by
      refine interp_unique hnd2 ?_ (by rw [Polynomial.degree_zero]; exact WithBot.bot_lt_coe _) fun y hy => ?_
      · rw [List.length_cons, List.length_map, ← hdeg]
        refine Polynomial.degree_le_natDegree.trans_lt ?_
        rw [Polynomial.natDegree_sub_C]
        exact_mod_cast Nat.lt_succ_self _
      · rw [Polynomial.eval_sub, Polynomial.eval_C, Polynomial.eval_zero, sub_eq_zero]
        rcases List.mem_cons.1 hy with rfl | hy
        · exact he
        · obtain ⟨w, hw, rfl⟩ := List.mem_map.1 hy
          rw [g2, sub_zero] at hw
          have := vanish_translate hadd (indep_take hind eta) k1 v w hw
          rwa [call_eq_eval, call_eq_eval] at this
    rw [sub_eq_zero] at hzero
    rw [hzero, Polynomial.natDegree_C, g3] at hdeg
    have : 0 < affineLen p 1 (basis.take eta) := pow_pos (pow_pos hp.out.pos _) _
    omega
  · intro h
    have := vanish_translate hadd (indep_take hind eta) k1 v (u - v) h
    rwa [add_sub_cancel] at this

end

/-! ### Concrete cases: the space of the repository's own test, `{0, 1, g, 1 + g}` over Z/2, in GF(8) -/

/-- The basis `[1, g]`. -/
def basis2 : List (CPoly (Zp 2)) := [CPoly.mk [1], CPoly.mk [0, 1]]

theorem basis2_items : affineIter (zpIter 2 (Zp.ofInt (p := 2))) basis2 0 =
    .ok [0, CPoly.mk [0, 1], CPoly.mk [1], CPoly.mk [1, 1]] := by decide +kernel

theorem basis2_indep : LinearIndependent (Zp 2) basis2.get := by
  obtain ⟨items, h1, -, -, h4⟩ := C22_affine_space 2 basis2 0
  rw [basis2_items] at h1
  cases h1
  exact h4.1 (by decide +kernel)

theorem basis2_inj : ∀ v, v ∈ Submodule.span (Zp 2) {b | b ∈ basis2} → Apr.castHom gf8 v = 0 → v = 0 := by
  obtain ⟨items, h1, h2, -⟩ := C22_affine_space 2 basis2 0
  rw [basis2_items] at h1
  cases h1
  intro v hv
  rw [← sub_zero v, ← h2] at hv
  revert v
  decide +kernel

/-- `C95_commit_partial` and `C96_completeness_partial` apply to the test's polynomial `x`, with the challenge 1. This meets the hypotheses of `C95_commit_refuted`, `C97_soundness_refuted`. -/
example (draw : Nat → Nat) (hd : ∀ j, 1 ≤ draw j ∧ draw j ≤ 4) :
    ∃ c, commit (friObj 2 basis2 0 (Apr.castHom gf8) (.int 1) 1 fun _ => .ok 1) (fun e => .ok (Sum.elim (Apr.castHom gf8) id e)) =
        .ok (some c) ∧ toPoly c = X ∧
      query (friObj 2 basis2 0 (Apr.castHom gf8) (.int 1) 1 fun _ => .ok 1) [fun e => .ok (Sum.elim (Apr.castHom gf8) id e)] (some c)
        draw = .ok true :=
  C96_completeness_partial basis2 0 (Apr.castHom gf8) (fun _ => .ok 1) (map_add _) basis2_indep basis2_inj (by simp [basis2])
    (by simp [basis2]) 1 le_rfl 1 rfl X (by rw [Polynomial.degree_X]; simp [basis2]; norm_num) (by simp) _ (by simp) draw
    (by simpa [basis2] using hd)

/-- With the challenge 0 the same honest run is rejected (`C97_verdict_refuted`), whatever the proof. -/
example (coeff : List (FF.Fq gf8)) (draw : Nat → Nat) (hd : ∀ j, 1 ≤ draw j ∧ draw j ≤ 4) :
    query (friObj 2 basis2 0 (Apr.castHom gf8) (.int 1) 1 fun _ => .ok 0) [fun e => .ok (Sum.elim (Apr.castHom gf8) id e)]
      (some coeff) draw = .ok false := by
  rw [C97_verdict_refuted basis2 0 (Apr.castHom gf8) (.int 1) (fun _ => .ok 0) (map_add _) basis2_indep basis2_inj (by simp [basis2])
    (by simp [basis2]) rfl 0 rfl X (by rw [Polynomial.degree_X]; simp [basis2]; norm_num) _ (by simp) coeff draw
    (by simpa [basis2] using hd)]
  simp

/-- `C96_completeness_refuted`, `C96_rounds_refuted`, `C97_no_round_refuted` and `C96_no_round_refuted` on the same space. -/
example (coeff : List (FF.Fq gf8)) :
    query (friObj 2 basis2 0 (Apr.castHom gf8) (.int 1) 1 fun _ => .ok 1) [fun _ => .ok 0] (some coeff) (fun _ => 3) = .ok false ∧
    query (friObj 2 basis2 0 (Apr.castHom gf8) (.int 1) 1 fun _ => .ok 1) [fun _ => .ok 0] (some coeff) (fun _ => 0) =
      .error .indexError ∧
    query (friObj 2 basis2 0 (Apr.castHom gf8) (.other true) 0 fun _ => .ok 1) [] (some coeff) (fun _ => 0) = .ok true ∧
    query (friObj 2 basis2 0 (Apr.castHom gf8) (.other true) 0 fun _ => .ok 1) [fun _ => .ok 0] none (fun _ => 0) =
      .error .typeError := by
  refine ⟨?_, ?_, ?_, ?_⟩
  · rw [C96_completeness_refuted basis2 0 (Apr.castHom gf8) (.int 1) (fun _ => .ok 1) (map_add _) basis2_indep basis2_inj
      (by simp [basis2]) (by simp [basis2]) rfl 1 rfl, if_pos (by simp [basis2])]
  · rw [C96_completeness_refuted basis2 0 (Apr.castHom gf8) (.int 1) (fun _ => .ok 1) (map_add _) basis2_indep basis2_inj
      (by simp [basis2]) (by simp [basis2]) rfl 1 rfl, if_neg (by simp)]
  · rw [C97_no_round_refuted (p := 2) basis2 0 (Apr.castHom gf8) (.other true) (fun _ => .ok 1) (by simp [basis2]) rfl 0 le_rfl]
  · rw [(C96_no_round_refuted (p := 2) basis2 0 (Apr.castHom gf8) (.other true) (fun _ => .ok 1) (by simp [basis2]) rfl 0 le_rfl _ _).2]

example : commit (friObj 2 basis2 0 (Apr.castHom gf8) (.other true) 1 fun _ => .ok 1) (fun _ => .ok 0) = .error .typeError ∧
    commit (friObj 2 basis2 0 (Apr.castHom gf8) (.int 1) 2 fun _ => .ok 1) (fun _ => .ok 0) = .error .attributeError := by
  constructor <;> decide +kernel

/-- `C95_errors_refuted` on the same space. -/
example : commit (friObj 2 basis2 0 (Apr.castHom gf8) (.int 0) 1 fun _ => .ok 1) (fun _ => .ok 0) = .error .valueError ∧
    query (friObj 2 basis2 0 (Apr.castHom gf8) (.int 1) 2 fun _ => .ok 1) [] none (fun _ => 0) = .error .attributeError ∧
    query (friObj 2 (List.replicate 63 1) 0 (Apr.castHom gf8) (.int 1) 1 fun _ => .ok 1) [] none (fun _ => 0) = .error .overflow := by
  refine ⟨?_, ?_, ?_⟩ <;> decide +kernel

example : hexToBin 10 = .ok [1, 0, 1, 0] ∧ hexToBin 0 = .ok [] := by decide

/-- The shift `g²` lies outside the span of `1, g`; the shift 1 lies in it. This meets the hypotheses of `C99_subspace_partial`, `C99_subspace_refuted`. -/
example : CPoly.mk [0, 0, 1] ∉ Submodule.span (Zp 2) {b | b ∈ basis2} ∧ CPoly.mk [1] ∈ Submodule.span (Zp 2) {b | b ∈ basis2} := by
  obtain ⟨items, h1, h2, -⟩ := C22_affine_space 2 basis2 0
  rw [basis2_items] at h1
  cases h1
  rw [← sub_zero (CPoly.mk [0, 0, 1]), ← sub_zero (CPoly.mk [1]), ← h2, ← h2]
  decide +kernel

/-- `C100_folding` on the space spanned by `1, g` folded along `1`. -/
example : ∃ q items vals, affineVanishing (zpIter 2 (Zp.ofInt (p := 2))) (Apr.castHom gf8) (selectSubspace basis2 1).1
      (selectSubspace basis2 1).2 = .ok q ∧ affineIter (zpIter 2 (Zp.ofInt (p := 2))) basis2 0 = .ok items ∧
    evalOnSubspace (zpIter 2 (Zp.ofInt (p := 2))) (Apr.castHom gf8) q basis2 0 = .ok vals ∧ vals[0]? = vals[2]? ∧
      vals[0]? ≠ vals[1]? := by
  have h : evalOnSubspace (zpIter 2 (Zp.ofInt (p := 2))) (Apr.castHom gf8) [0, 1, 1] basis2 0 = .ok
      ([0, CPoly.mk [0, 1], CPoly.mk [1], CPoly.mk [1, 1]].map fun v => call ([0, 1, 1] : List (FF.Fq gf8)) (Apr.castHom gf8 v)) := by
    simp only [evalOnSubspace, basis2_items, bind, Except.bind]
  exact ⟨[0, 1, 1], _, _, by decide +kernel, basis2_items, h, by decide +kernel, by decide +kernel⟩

end Verif.Props
