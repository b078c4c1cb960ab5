import Verif.Proofs.ZeroKnowledge
/-! # C59, C60, C61, C79: the graph isomorphism protocol -/

namespace Verif.Props
open Spec
open Verif.ZK (runProtocol accepts simulate convince)

/-- The triangle with a tail used in the examples. -/
def tailG : List (Int × Int) := [(1, 2), (2, 3), (3, 1), (3, 4)]

theorem tailG_top : IsTop 4 tailG := ⟨by unfold InRange; decide, (3, 4), by decide, by decide⟩
theorem tailPerm : IsPerm 4 [2, 0, 3, 1] := by unfold IsPerm; decide
theorem tailPerm' : IsPerm 4 [3, 0, 1, 2] := by unfold IsPerm; decide

/-- **C59.** `G1` has largest vertex `n`, `iso` is an isomorphism (a permutation of the `n` vertices) and `G2` is `G1` with the
vertices renamed by it; every permutation drawn and both challenges are accepted. The hypothesis that `n` is also
the largest vertex number of `G2` is what is missing from the full property: see `C59_isolated_refuted`. -/
theorem C59_completeness_partial {n : Nat} {G1 G2 : List (Int × Int)} (h1 : IsTop n G1) (h2 : IsTop n G2) {iso : List Int}
    (hi : IsPerm n iso) (hG : G2 = rename (relabel iso) G1) (perm : List Int) (hp : IsPerm n perm) (choice : Int)
    (hc : choice = 1 ∨ choice = 2) : runProtocol G1 G2 iso perm choice = .ok true := by
  subst hG; exact ZK.run_honest h1 hi hp h2 choice hc

example : IsTop 4 (rename (relabel [2, 0, 3, 1]) tailG) := ⟨by unfold InRange; decide, (4, 3), by decide, by decide⟩
example : rename (relabel [2, 0, 3, 1]) tailG = [(3, 1), (1, 4), (4, 3), (4, 2)] := by decide

/-- **C59**, when every one of the vertices `1, …, n` is an endpoint: no further hypothesis on `G2`. -/
theorem C59_completeness_spanning {n : Nat} {G1 G2 : List (Int × Int)} (h1 : InRange n G1)
    (hs : ∀ v : Int, 1 ≤ v → v ≤ n → Vertex G1 v) (hn : 1 ≤ n) {iso : List Int}
    (hi : IsPerm n iso) (hG : G2 = rename (relabel iso) G1) (perm : List Int) (hp : IsPerm n perm) (choice : Int)
    (hc : choice = 1 ∨ choice = 2) : runProtocol G1 G2 iso perm choice = .ok true := by
  have t1 : IsTop n G1 := by
    refine ⟨h1, ?_⟩
    obtain ⟨e, he, h⟩ := hs n (by omega) (by omega)
    exact ⟨e, he, by rcases h with h | h <;> simp [← h]⟩
  refine C59_completeness_partial t1 ?_ hi hG perm hp choice hc
  subst hG
  constructor
  · intro e he
    unfold rename at he
    rw [List.mem_map] at he
    obtain ⟨d, hd, rfl⟩ := he
    have := h1 d hd
    exact ⟨ZK.relabel_range hi _ this.1.1 this.1.2, ZK.relabel_range hi _ this.2.1 this.2.2⟩
  · -- the vertex sent to `n`
    have hm : (n : Int) - 1 ∈ iso := (ZK.isPerm_mem hi _).mpr (by omega)
    obtain ⟨k, hk, hkn⟩ := List.getElem_of_mem hm
    have hl := ZK.isPerm_length hi
    obtain ⟨e, he, h⟩ := hs ((k : Int) + 1) (by omega) (by omega)
    have hr : relabel iso ((k : Int) + 1) = n := by
      unfold relabel
      rw [show ((k : Int) + 1 - 1).toNat = k by omega, List.getD_eq_getElem _ _ hk, hkn]; omega
    refine ⟨(relabel iso e.1, relabel iso e.2), ?_, ?_⟩
    · unfold rename; exact List.mem_map.mpr ⟨e, he, rfl⟩
    · rcases h with h | h
      · left; simp only [← h, hr]
      · right; simp only [← h, hr]

example : ∀ v : Int, 1 ≤ v → v ≤ 4 → Vertex tailG v := by
  intro v h1 h2
  have : v = 1 ∨ v = 2 ∨ v = 3 ∨ v = 4 := by omega
  rcases this with rfl | rfl | rfl | rfl
  · exact ⟨(1, 2), by decide, by decide⟩
  · exact ⟨(1, 2), by decide, by decide⟩
  · exact ⟨(2, 3), by decide, by decide⟩
  · exact ⟨(3, 4), by decide, by decide⟩

/-- **C59 is false** for graphs with isolated vertices: the honest prover's constructor raises, since the number of vertices is
taken to be the largest endpoint. -/
theorem C59_isolated_refuted : ∃ (n : Nat) (G1 G2 : List (Int × Int)) (iso perm : List Int), IsTop n G1 ∧ InRange n G2 ∧
    IsPerm n iso ∧ IsPerm n perm ∧ G2 = rename (relabel iso) G1 ∧ ∀ c, runProtocol G1 G2 iso perm c = .error .assertion := by
  refine ⟨3, [(1, 3)], [(1, 2)], [0, 2, 1], [0, 1, 2], ⟨by unfold InRange; decide, (1, 3), by decide, by decide⟩, by unfold InRange; decide, ?_, ?_,
    by decide, fun c => rfl⟩
  · unfold IsPerm; decide
  · unfold IsPerm; decide

/-- **C59 is false** for an isomorphism of graphs that does not preserve the order in which the edges are listed. -/
theorem C59_edge_order_refuted : ∃ (G1 G2 : List (Int × Int)) (iso perm : List Int), G1.Perm G2 ∧
    (∀ a b : Int, 1 ≤ a → a ≤ 3 → 1 ≤ b → b ≤ 3 → (Adj G1 a b ↔ Adj G2 (relabel iso a) (relabel iso b))) ∧ IsPerm 3 iso ∧ IsPerm 3 perm ∧
    IsTop 3 G1 ∧ IsTop 3 G2 ∧ runProtocol G1 G2 iso perm 2 = .ok false := by
  refine ⟨[(1, 2), (2, 3)], [(2, 3), (1, 2)], [0, 1, 2], [0, 1, 2], by decide, ?_, by unfold IsPerm; decide, by unfold IsPerm; decide,
    ⟨by unfold InRange; decide, (2, 3), by decide, by decide⟩, ⟨by unfold InRange; decide, (2, 3), by decide, by decide⟩, rfl⟩
  intro a b h1 h2 h3 h4
  have ha : a = 1 ∨ a = 2 ∨ a = 3 := by omega
  have hb : b = 1 ∨ b = 2 ∨ b = 3 := by omega
  unfold Adj
  rcases ha with rfl | rfl | rfl <;> rcases hb with rfl | rfl | rfl <;> decide

/-- A star with three rays. -/
def starG : List (Int × Int) := [(1, 2), (1, 3), (1, 4)]
/-- A path with three edges. -/
def pathG : List (Int × Int) := [(1, 2), (2, 3), (3, 4)]

/-- The cheating prover's answer: vertex `2k+1` and `2k+2` of `H` are sent to the two ends of the `k`-th edge of `G`. -/
def readOff (G : List (Int × Int)) (v : Int) : Py Int :=
  let e := G.getD ((v - 1) / 2).toNat (0, 0)
  .ok (if v % 2 = 1 then e.1 else e.2)

/-- **C60 is false**: the verifier does not check that the prover's answer is injective, so one graph `H` answers both
challenges for a star and a path, which are not isomorphic. -/
theorem C60_soundness_refuted : ∃ (G1 G2 H : List (Int × Int)) (f1 f2 : Int → Py Int),
    accepts G1 G2 f1 1 H = .ok true ∧ accepts G1 G2 f2 2 H = .ok true ∧ ¬ Isomorphic G1 G2 := by
  refine ⟨starG, pathG, [(1, 2), (3, 4), (5, 6)], readOff starG, readOff pathG, rfl, rfl, ?_⟩
  rintro ⟨σ, h⟩
  have h2 := (h 1 2).mp (by unfold Adj; decide)
  have h3 := (h 1 3).mp (by unfold Adj; decide)
  have h4 := (h 1 4).mp (by unfold Adj; decide)
  have n23 : σ 2 ≠ σ 3 := σ.injective.ne (by decide)
  have n24 : σ 2 ≠ σ 4 := σ.injective.ne (by decide)
  have n34 : σ 3 ≠ σ 4 := σ.injective.ne (by decide)
  simp only [Adj, pathG, List.mem_cons, Prod.mk.injEq, List.not_mem_nil, or_false] at h2 h3 h4
  omega

/-- **C60 fails for all pairs of graphs** with the same number of edges: the verifier can be made to accept both answers. -/
theorem C60_forgery_refuted (G1 G2 : List (Int × Int)) (hl : G1.length = G2.length) :
    ∃ (H : List (Int × Int)) (f1 f2 : Int → Py Int), accepts G1 G2 f1 1 H = .ok true ∧ accepts G1 G2 f2 2 H = .ok true := by
  let H : List (Int × Int) := (List.range G1.length).map fun k : Nat => (2 * (k : Int) + 1, 2 * (k : Int) + 2)
  have key : ∀ G : List (Int × Int), G.length = G1.length → ZK.applyIso H (readOff G) = .ok G := by
    intro G hG
    rw [ZK.applyIso_eq H (readOff G) (fun v => if v % 2 = 1 then (G.getD ((v - 1) / 2).toNat (0, 0)).1
      else (G.getD ((v - 1) / 2).toNat (0, 0)).2) (fun e _ => ⟨rfl, rfl⟩)]
    congr 1
    apply List.ext_getElem
    · simp [H, rename, hG]
    · intro i h1 h2
      have e1 : ((2 * (i : Int) + 1 - 1) / 2).toNat = i := by omega
      have e2 : ((2 * (i : Int) + 2 - 1) / 2).toNat = i := by omega
      have e3 : (2 * (i : Int) + 1) % 2 = 1 := by omega
      have e4 : ¬ (2 * (i : Int) + 2) % 2 = 1 := by omega
      simp only [H, rename, List.map_map, List.getElem_map, List.getElem_range, Function.comp_apply, e1, e2, if_pos e3, if_neg e4]
      rw [List.getD_eq_getElem _ _ h2]
  refine ⟨H, readOff G1, readOff G2, ?_, ?_⟩
  · unfold accepts
    rw [key G1 rfl]
    simp [ZK.pyIdxI, pyIdx, bind, Except.bind]
  · unfold accepts
    rw [key G2 hl.symm]
    simp [ZK.pyIdxI, pyIdx, bind, Except.bind]

example : starG.length = pathG.length := rfl

/-- **C60.** If one graph `H` is answered acceptably for both challenges by functions that are injective on the vertices of `H`,
`G1` and `G2` are isomorphic. The verifier does not check injectivity. -/
theorem C60_soundness_partial (G1 G2 H : List (Int × Int)) (f1 f2 : Int → Py Int) (h1 : accepts G1 G2 f1 1 H = .ok true)
    (h2 : accepts G1 G2 f2 2 H = .ok true) (i1 : ∀ v w, Vertex H v → Vertex H w → f1 v = f1 w → v = w)
    (i2 : ∀ v w, Vertex H v → Vertex H w → f2 v = f2 w → v = w) : Isomorphic G1 G2 := by
  have key : ∀ (G : List (Int × Int)) (f : Int → Py Int) (c : Int), ZK.pyIdxI [G1, G2] (c - 1) = .ok G → accepts G1 G2 f c H = .ok true →
      (∀ v w, Vertex H v → Vertex H w → f v = f w → v = w) → Isomorphic H G := by
    intro G f c hG h hi
    unfold accepts at h
    simp only [Air.bind_iff] at h
    obtain ⟨G', hG', K, hK, h⟩ := h
    rw [hG] at hG'
    simp only [Except.ok.injEq, decide_eq_true_eq] at h hG'
    subst hG' h
    obtain ⟨g, hg, hK⟩ := ZK.applyIso_ok _ _ _ hK
    rw [hK]
    refine ZK.isomorphic_of_rename g H fun v w hv hw e => hi v w hv hw ?_
    rw [hg v hv, hg w hw, e]
  obtain ⟨σ, hσ⟩ := key G1 f1 1 rfl h1 i1
  obtain ⟨τ, hτ⟩ := key G2 f2 2 rfl h2 i2
  refine ⟨σ.symm.trans τ, fun a b => ?_⟩
  have := hσ (σ.symm a) (σ.symm b)
  simp only [Equiv.apply_symm_apply] at this
  rw [← this]
  exact hτ _ _

/-- The hypotheses of `C60_soundness_partial` are met by the honest prover's answers. -/
example : accepts tailG (rename (relabel [2, 0, 3, 1]) tailG) (ZK.proveIso [2, 0, 3, 1] [3, 0, 1, 2] 1) 1
      (rename (relabel [3, 0, 1, 2]) tailG) = .ok true ∧
    accepts tailG (rename (relabel [2, 0, 3, 1]) tailG) (ZK.proveIso [2, 0, 3, 1] [3, 0, 1, 2] 2) 2
      (rename (relabel [3, 0, 1, 2]) tailG) = .ok true := ⟨rfl, rfl⟩

/-- **C61.** What the simulator outputs: it always returns, and the verifier accepts its transcript exactly when the permutation
drawn is its own inverse on the vertices of the chosen graph (the code returns the permutation where its inverse is needed). -/
theorem C61_simulator_partial {n : Nat} {G1 G2 G : List (Int × Int)} (choice : Int)
    (hc : choice = 1 ∧ G = G1 ∨ choice = 2 ∧ G = G2) (hG : IsTop n G) (perm : List Int) (hp : IsPerm n perm) :
    ∃ (H : List (Int × Int)) (w : Int → Py Int) (r : Bool), simulate G1 G2 perm choice = .ok (H, choice, w) ∧
      accepts G1 G2 w choice H = .ok r ∧
      (r = true ↔ ∀ v, Vertex G v → relabel perm (relabel perm v) = v) := by
  have hidx : ZK.pyIdxI [G1, G2] (choice - 1) = .ok G := by
    rcases hc with ⟨rfl, rfl⟩ | ⟨rfl, rfl⟩ <;> rfl
  have hl := ZK.isPerm_length hp
  have hap : ∀ K : List (Int × Int), InRange n K → ZK.applyIso K (ZK.permFun perm) = .ok (rename (relabel perm) K) := by
    intro K hK
    apply ZK.applyIso_eq
    intro e he
    have := hK e he
    exact ⟨ZK.permFun_eq perm e.1 this.1.1 (by rw [hl]; exact this.1.2), ZK.permFun_eq perm e.2 this.2.1 (by rw [hl]; exact this.2.2)⟩
  have hr : InRange n (rename (relabel perm) G) := by
    intro e he
    unfold rename at he
    rw [List.mem_map] at he
    obtain ⟨d, hd, rfl⟩ := he
    have := hG.1 d hd
    exact ⟨ZK.relabel_range hp _ this.1.1 this.1.2, ZK.relabel_range hp _ this.2.1 this.2.2⟩
  refine ⟨rename (relabel perm) G, ZK.permFun perm, decide (G = rename (relabel perm) (rename (relabel perm) G)), ?_, ?_, ?_⟩
  · simp [simulate, hidx, ZK.numVertices_eq hG, hap G hG.1, bind, Except.bind]
  · simp [accepts, hidx, hap _ hr, bind, Except.bind]
  · rw [decide_eq_true_eq, ZK.rename_comp]
    nth_rewrite 1 [← ZK.rename_id G]
    rw [ZK.rename_inj_iff]
    exact forall₂_congr fun v _ => eq_comm

example : IsPerm 4 [1, 0, 3, 2] ∧ ∀ v, Vertex tailG v → relabel [1, 0, 3, 2] (relabel [1, 0, 3, 2] v) = v := by
  refine ⟨by unfold IsPerm; decide, ?_⟩
  rintro v ⟨e, he, hv⟩
  have : v = 1 ∨ v = 2 ∨ v = 3 ∨ v = 4 := by
    simp only [tailG, List.mem_cons, List.not_mem_nil, or_false] at he
    rcases he with rfl | rfl | rfl | rfl <;> simp at hv <;> omega
  rcases this with rfl | rfl | rfl | rfl <;> rfl

/-- **C61 is false**: a simulated transcript the verifier rejects. -/
theorem C61_simulator_refuted : ∃ (G1 G2 : List (Int × Int)) (perm : List Int) (H : List (Int × Int)) (w : Int → Py Int),
    IsTop 3 G1 ∧ IsPerm 3 perm ∧ simulate G1 G2 perm 1 = .ok (H, 1, w) ∧ accepts G1 G2 w 1 H = .ok false :=
  ⟨[(1, 2), (2, 3)], [(1, 2), (2, 3)], [1, 2, 0], _, _, ⟨by unfold InRange; decide, (2, 3), by decide, by decide⟩,
    by unfold IsPerm; decide, rfl, rfl⟩

/-- How many rounds `convince_beyond_doubt` runs at most for the tolerance `a / b`: the least `k` with `2^-k ≤ a / b`, and 1075 for a
tolerance below every positive float. -/
def Enough (a : Int) (b k : Nat) : Prop := (b : Int) ≤ a * 2 ^ k ∨ 1075 ≤ k

theorem goesOn_iff {a : Int} (ha : 0 ≤ a) (b k : Nat) : ZK.goesOn a b k = true ↔ ¬ Enough a b k := by
  unfold ZK.goesOn Enough
  split
  · simp; omega
  · simp; omega

/-- The loop runs round after round as long as they are accepted. -/
theorem convince_prefix (G1 G2 : List (Int × Int)) (iso : List Int) (a : Int) (b : Nat) (draws : Nat → List Int × Int) :
    ∀ (m j : Nat), (∀ i, j ≤ i → i < j + m → ZK.goesOn a b i = true ∧ runProtocol G1 G2 iso (draws i).1 (draws i).2 = .ok true) →
      ∀ fuel, ZK.convinceLoop G1 G2 iso a b draws (fuel + m) j = ZK.convinceLoop G1 G2 iso a b draws fuel (j + m)
  | 0, _, _, _ => rfl
  | m + 1, j, h, fuel => by
    have h0 := h j le_rfl (by omega)
    have ih := convince_prefix G1 G2 iso a b draws m (j + 1) (fun i h1 h2 => h i (by omega) (by omega)) fuel
    rw [show fuel + (m + 1) = (fuel + m) + 1 by omega, ZK.convinceLoop, if_pos h0.1, h0.2, show j + (m + 1) = j + 1 + m by omega, ← ih]
    rfl

/-- **C79**, for every prover and every tolerance `a / b ≥ 0`: with `k` the least number with `2^-k ≤ a / b` (or 1075, if the tolerance is
below every positive float), `convince_beyond_doubt` returns after exactly `k` rounds if the verifier accepts in each, and
raises `AssertionError` in the first round in which the verifier rejects. -/
theorem C79_outcome (G1 G2 : List (Int × Int)) (iso : List Int) (a : Int) (ha : 0 ≤ a) (b : Nat) (draws : Nat → List Int × Int) :
    ∃ k, IsLeast {k : Nat | (b : Int) ≤ a * 2 ^ k ∨ 1075 ≤ k} k ∧
      ((∀ j < k, runProtocol G1 G2 iso (draws j).1 (draws j).2 = .ok true) → ∀ fuel > k, convince G1 G2 iso a b draws fuel = .ok k) ∧
      ∀ j < k, (∀ i < j, runProtocol G1 G2 iso (draws i).1 (draws i).2 = .ok true) →
        runProtocol G1 G2 iso (draws j).1 (draws j).2 = .ok false → ∀ fuel > j, convince G1 G2 iso a b draws fuel = .error .assertion := by
  have hex : ∃ k, Enough a b k := ⟨1075, Or.inr le_rfl⟩
  classical
  refine ⟨Nat.find hex, ⟨Nat.find_spec hex, fun j hj => Nat.find_min' hex hj⟩, ?_, ?_⟩
  · intro hall fuel hf
    obtain ⟨fuel, rfl⟩ := Nat.exists_eq_add_of_lt hf
    have := convince_prefix G1 G2 iso a b draws (Nat.find hex) 0
      (fun i _ hi => ⟨(goesOn_iff ha b i).2 (Nat.find_min hex (by omega)), hall i (by omega)⟩) (fuel + 1)
    rw [convince, show Nat.find hex + fuel + 1 = fuel + 1 + Nat.find hex by omega, this, ZK.convinceLoop, Nat.zero_add, if_neg]
    rw [goesOn_iff ha]
    exact not_not.2 (Nat.find_spec hex)
  · intro j hj hall hrej fuel hf
    obtain ⟨fuel, rfl⟩ := Nat.exists_eq_add_of_lt hf
    have := convince_prefix G1 G2 iso a b draws j 0
      (fun i _ hi => ⟨(goesOn_iff ha b i).2 (Nat.find_min hex (by omega)), hall i (by omega)⟩) (fuel + 1)
    rw [convince, show j + fuel + 1 = fuel + 1 + j by omega, this, ZK.convinceLoop, Nat.zero_add,
      if_pos ((goesOn_iff ha b j).2 (Nat.find_min hex hj)), hrej]
    rfl

/-- **C79.** With an honest prover (under the hypotheses of C59), for every tolerance `a / b ≥ 0` and whatever is drawn in every round,
`convince_beyond_doubt` returns after exactly `k` rounds, `k` the least number with `2^-k ≤ a / b`, or 1075. -/
theorem C79_rounds {n : Nat} {G1 G2 : List (Int × Int)} (h1 : IsTop n G1) (h2 : IsTop n G2) {iso : List Int}
    (hi : IsPerm n iso) (hG : G2 = rename (relabel iso) G1) (draws : Nat → List Int × Int)
    (hd : ∀ k, IsPerm n (draws k).1 ∧ ((draws k).2 = 1 ∨ (draws k).2 = 2)) (a : Int) (ha : 0 ≤ a) (b : Nat) :
    ∃ k, IsLeast {k : Nat | (b : Int) ≤ a * 2 ^ k ∨ 1075 ≤ k} k ∧ ∀ fuel > k, convince G1 G2 iso a b draws fuel = .ok k := by
  obtain ⟨k, hk, h, -⟩ := C79_outcome G1 G2 iso a ha b draws
  exact ⟨k, hk, h fun j _ => C59_completeness_partial h1 h2 hi hG _ (hd j).1 _ (hd j).2⟩

/-- **C79**: with a negative tolerance the honest prover is asked for ever. -/
theorem C79_negative_tolerance {n : Nat} {G1 G2 : List (Int × Int)} (h1 : IsTop n G1) (h2 : IsTop n G2) {iso : List Int}
    (hi : IsPerm n iso) (hG : G2 = rename (relabel iso) G1) (draws : Nat → List Int × Int)
    (hd : ∀ k, IsPerm n (draws k).1 ∧ ((draws k).2 = 1 ∨ (draws k).2 = 2)) (a : Int) (ha : a < 0) (b fuel : Nat) :
    convince G1 G2 iso a b draws fuel = .error .diverge := by
  have h := convince_prefix G1 G2 iso a b draws fuel 0 (fun i _ _ => ⟨?_, C59_completeness_partial h1 h2 hi hG _ (hd i).1 _ (hd i).2⟩) 0
  · rw [Nat.zero_add] at h
    exact h
  · unfold ZK.goesOn
    split
    · have : a * 2 ^ i < 0 := mul_neg_of_neg_of_pos ha (by positivity)
      simp; omega
    · simpa

/-- The default tolerance `1e-20` needs 67 rounds. This meets the hypotheses of `C79_outcome`. -/
example : IsLeast {k : Nat | ((10 ^ 20 : Nat) : Int) ≤ 1 * 2 ^ k ∨ 1075 ≤ k} 67 := by
  refine ⟨Or.inl (by norm_num), fun j hj => ?_⟩
  by_contra h
  rcases hj with hj | hj
  · have : (2 : Int) ^ j ≤ 2 ^ 66 := pow_le_pow_right₀ (by norm_num) (by omega)
    norm_num at hj this
    omega
  · omega

/-- **C79**, for every prover: when `convince_beyond_doubt` returns, the verifier accepted in every one of the `k` rounds it ran. -/
theorem C79_all_accepted (G1 G2 : List (Int × Int)) (iso : List Int) (a : Int) (b : Nat) (draws : Nat → List Int × Int) (fuel k : Nat)
    (h : convince G1 G2 iso a b draws fuel = .ok k) :
    ((b : Int) ≤ a * 2 ^ k ∨ 1075 ≤ k) ∧ ∀ j < k, runProtocol G1 G2 iso (draws j).1 (draws j).2 = .ok true := by
  have step : ∀ fuel j, ZK.convinceLoop G1 G2 iso a b draws fuel j = .ok k →
      ZK.goesOn a b k = false ∧ j ≤ k ∧ ∀ i, j ≤ i → i < k → runProtocol G1 G2 iso (draws i).1 (draws i).2 = .ok true := by
    intro fuel
    induction fuel with
    | zero => intro j h; simp [ZK.convinceLoop] at h
    | succ fuel ih =>
      intro j h
      unfold ZK.convinceLoop at h
      split at h
      · simp only [Air.bind_iff] at h
        obtain ⟨r, hr, u, hu, h⟩ := h
        obtain ⟨hb, hj, hall⟩ := ih (j + 1) h
        have hrt : r = true := by
          cases r
          · simp [pyAssert] at hu
          · rfl
        subst hrt
        refine ⟨hb, by omega, fun i hi hik => ?_⟩
        rcases Nat.eq_or_lt_of_le hi with rfl | hlt
        · exact hr
        · exact hall i hlt hik
      · rename_i hg
        simp only [Except.ok.injEq] at h
        subst h
        exact ⟨by simpa using hg, le_refl _, fun i h1 h2 => by omega⟩
  obtain ⟨hb, -, hall⟩ := step fuel 0 h
  refine ⟨?_, fun j hj => hall j (by omega) hj⟩
  unfold ZK.goesOn at hb
  split at hb
  · left; simpa using hb
  · right; omega

/-- This meets the hypotheses of `C79_rounds`. -/
example : convince tailG (rename (relabel [2, 0, 3, 1]) tailG) [2, 0, 3, 1] 1 8 (fun k => ([3, 0, 1, 2], 1 + k % 2)) 5 = .ok 3 := by decide

/-- A prover with a wrong isomorphism is found out in the second round (the first challenge does not involve it). -/
example : convince tailG (rename (relabel [2, 0, 3, 1]) tailG) [0, 1, 2, 3] 1 8 (fun k => ([3, 0, 1, 2], 1 + k % 2)) 5 = .error .assertion := by
  decide

end Verif.Props
