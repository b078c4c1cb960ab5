import Verif.Proofs.SmoothFri
import Verif.Props.Polynomial
/-!
# The exceptions of the verifiers
-/

namespace Verif.Refusals
open Verif.Poly Verif.PolyUtils Verif.Stark Verif.SmoothFri Verif.Compression

/-- The exceptions a verifier raises: `AssertionError`, `IndexError`, `ZeroDivisionError`, `OverflowError`. -/
def Refusal (e : PyErr) : Prop := e = .assertion ∨ e = .indexError ∨ e = .zeroDivision ∨ e = .overflow

/-- Whatever `x` raises is one of these. -/
def Calm {α : Type _} (x : Py α) : Prop := ∀ e, x = .error e → Refusal e

section basic
variable {α β : Type _}

theorem calm_ok (a : α) : Calm (.ok a : Py α) := fun e h => by cases h

theorem calm_bind {x : Py α} {f : α → Py β} (hx : Calm x) (hf : ∀ a, x = .ok a → Calm (f a)) : Calm (x >>= f) := by
  intro e h
  cases hxx : x with
  | error e' =>
    rw [hxx] at h
    cases h
    exact hx _ hxx
  | ok a =>
    rw [hxx] at h
    exact hf a hxx e h

theorem calm_idx (l : List α) (i : Nat) : Calm (pyIdx l i) := by
  intro e h
  rw [pyIdx] at h
  split at h
  · cases h
  · cases h; exact .inr (.inl rfl)

theorem calm_assert (c : Bool) : Calm (pyAssert c) := by
  intro e h
  rw [pyAssert] at h
  split at h
  · cases h
  · cases h; exact .inl rfl

theorem calm_map {f : α → Py β} : ∀ l : List α, (∀ a ∈ l, Calm (f a)) → Calm (pyMap f l)
  | [], _ => calm_ok _
  | a :: l, h => by
    rw [pyMap]
    exact calm_bind (h a (by simp)) fun b _ => calm_bind (calm_map l fun a ha => h a (by simp [ha])) fun _ _ => calm_ok _

theorem calm_error {e : PyErr} (h : Refusal e) : Calm (.error e : Py α) := fun e' h' => by cases h'; exact h

theorem refusal_zero : Refusal .zeroDivision := .inr (.inr (.inl rfl))

end basic

/-! ### Indices -/

theorem calm_mod (a b : Int) : Calm (Utils.pyMod a b) := by
  rw [Utils.pyMod]
  split
  · exact calm_error refusal_zero
  · exact calm_ok _

theorem calm_divmod (a b : Int) : Calm (pyDivmod a b) := by
  rw [pyDivmod]
  split
  · exact calm_error refusal_zero
  · exact calm_ok _

theorem calm_draw (data : Bytes) (m : Int) : ∀ n k, Calm (Utils.drawWords data m n k)
  | 0, _ => calm_ok _
  | n + 1, k => by
    rw [Utils.drawWords]
    exact calm_bind (calm_mod _ _) fun _ _ => calm_bind (calm_draw data m n (k + 1)) fun _ _ => calm_ok _

theorem calm_spread (e : Int) : ∀ l, Calm (Utils.spread e l)
  | [] => calm_ok _
  | x :: l => by
    rw [Utils.spread]
    exact calm_bind (calm_divmod _ _) fun _ _ => calm_bind (calm_spread e l) fun _ _ => calm_ok _

theorem calm_indices (blake : Bytes → Bytes) (hb : ∀ x, blake x ≠ []) (entropy : Bytes) (m count e : Int) :
    Calm (Utils.getPseudorandomIndices blake entropy m count e) := by
  rw [Utils.getPseudorandomIndices]
  refine calm_bind (calm_assert _) fun _ _ => calm_bind ?_ fun data _ => ?_
  · obtain ⟨d, hd, _⟩ := Utils.extendData_ok blake hb (4 * count) ((4 * count).toNat + 1) entropy (by omega) (by omega)
    rw [hd]
    exact calm_ok _
  · split
    · exact calm_draw _ _ _ _
    · exact calm_bind (calm_divmod _ _) fun _ _ => calm_bind (calm_draw _ _ _ _) fun _ _ => calm_spread _ _

/-! ### Trees -/

theorem calm_branch (H : Bytes → Bytes) (root : Bytes) (i : Nat) (pr : List Bytes) : Calm (Merkle.verifyBranch H root i pr) := by
  rw [Merkle.verifyBranch]
  refine calm_bind ?_ fun _ _ => ?_
  · rw [Merkle.getIndexInPermuted]
    split
    · exact calm_error refusal_zero
    · exact calm_ok _
  · cases pr with
    | nil => exact calm_error (.inr (.inl rfl))
    | cons v ps => exact calm_bind (calm_assert _) fun _ _ => calm_ok _

theorem calm_branchInt (H : Bytes → Bytes) (root : Bytes) (i : Nat) (pr : List Bytes) : Calm (Merkle.verifyBranchInt H root i pr) :=
  calm_bind (calm_branch H root i pr) fun _ _ => calm_ok _

theorem calm_permute {α : Type _} (values : List α) (q : Nat) : ∀ is o, Calm (Merkle.permute4Loop values q is o)
  | [], _ => calm_ok _
  | i :: is, o => by
    rw [Merkle.permute4Loop]
    exact calm_bind (calm_idx _ _) fun _ _ => calm_bind (calm_idx _ _) fun _ _ => calm_bind (calm_idx _ _) fun _ _ =>
      calm_bind (calm_idx _ _) fun _ _ => calm_permute values q is _

theorem permute4Loop_sub {α : Type _} (values : List α) (q : Nat) : ∀ is o r, Merkle.permute4Loop values q is o = .ok r → ∀ a ∈ r, a ∈ o ∨ a ∈ values
  | [], o, r, h, a, ha => by
    cases h
    exact .inl ha
  | i :: is, o, r, h, a, ha => by
    rw [Merkle.permute4Loop] at h
    obtain ⟨a1, h1, h⟩ := bind_inv h
    obtain ⟨a2, h2, h⟩ := bind_inv h
    obtain ⟨a3, h3, h⟩ := bind_inv h
    obtain ⟨a4, h4, h⟩ := bind_inv h
    have mem : ∀ {i : Nat} {b : α}, pyIdx values i = .ok b → b ∈ values := by
      intro i b hb
      rw [pyIdx] at hb
      split at hb
      · rename_i hx
        cases hb
        exact List.mem_of_getElem? hx
      · cases hb
    rcases permute4Loop_sub values q is _ r h a ha with h' | h'
    · rcases List.mem_append.1 h' with h' | h'
      · exact .inl h'
      · right
        simp only [List.mem_cons, List.not_mem_nil, or_false] at h'
        rcases h' with rfl | rfl | rfl | rfl
        · exact mem h1
        · exact mem h2
        · exact mem h3
        · exact mem h4
    · exact .inr h'

theorem calm_encode : ∀ (l : List Merkle.Leaf) nodes, (∀ x ∈ l, Calm x.encode) → Calm (Merkle.encodeLeaves l nodes)
  | [], _, _ => calm_ok _
  | x :: l, nodes, h => by
    rw [Merkle.encodeLeaves]
    exact calm_bind (h x (by simp)) fun _ _ => calm_encode l _ fun y hy => h y (by simp [hy])

theorem calm_loop (H : Bytes → Bytes) : ∀ i nodes, Calm (Merkle.merkleLoop H i nodes)
  | 0, _ => calm_ok _
  | i + 1, nodes => by
    rw [Merkle.merkleLoop]
    exact calm_bind (calm_idx _ _) fun _ _ => calm_bind (calm_idx _ _) fun _ _ => calm_loop H i _

theorem calm_merkelize (H : Bytes → Bytes) (l : List Merkle.Leaf) (h : ∀ x ∈ l, Calm x.encode) : Calm (Merkle.merkelize H l) := by
  rw [Merkle.merkelize]
  refine calm_bind (calm_permute _ _ _ _) fun L hL => calm_bind (calm_encode _ _ fun x hx => ?_) fun _ _ => calm_loop _ _ _
  rcases permute4Loop_sub _ _ _ _ _ hL x hx with h' | h'
  · simp at h'
  · exact h x h'

/-! ### Interpolation -/

section interp
variable {K : Type _} [Field K] [DecidableEq K]

theorem calm_div (a b : K) : Calm (pyDiv a b) := by
  rw [pyDiv]
  split
  · exact calm_error refusal_zero
  · exact calm_ok _

theorem calm_multiInv (l : List K) : Calm (multiInv eltTruthy recip l) := by
  rw [multiInv]
  exact calm_bind (calm_assert _) fun _ _ => calm_bind (calm_div _ _) fun _ _ => calm_ok _

omit [DecidableEq K] in
theorem calm_addScaled (y : K) : ∀ b n : List K, Calm (addScaled y b n)
  | [], _ => calm_ok _
  | _ :: _, [] => calm_error (.inr (.inl rfl))
  | b :: bs, n :: ns => by
    rw [addScaled]
    exact calm_bind (calm_addScaled y bs ns) fun _ _ => calm_ok _

omit [DecidableEq K] in
theorem calm_interpLoop : ∀ (nums : List (List K)) (ys ds b : List K), Calm (interpLoop nums ys ds b)
  | [], _, _, _ => calm_ok _
  | num :: nums, y :: ys, d :: ds, b => by
    rw [interpLoop]
    exact calm_bind (calm_addScaled _ _ _) fun _ _ => calm_interpLoop nums ys ds _
  | _ :: _, [], _, _ => calm_error (.inr (.inl rfl))
  | _ :: _, _ :: _, [], _ => calm_error (.inr (.inl rfl))

theorem calm_interp (xs ys : List K) : Calm (lagrangeInterp xs ys) := by
  rw [lagrangeInterp]
  refine calm_bind (calm_assert _) fun _ _ => calm_bind (calm_map _ fun x _ => ?_) fun _ _ => calm_bind (calm_multiInv _) fun _ _ =>
    calm_bind (calm_interpLoop _ _ _ _) fun _ _ => calm_ok _
  by_cases h : toPoly (ctor [-x, 1]) = 0
  · rw [(Props.C10_divmod_zero _ _ (canon_ctor _) h).2.1]
    exact calm_error refusal_zero
  · obtain ⟨q, r, _, h, _⟩ := Props.C10_divmod (zpoly xs) (ctor [-x, 1]) (canon_ctor _) (canon_ctor _) h
    rw [h]
    exact calm_ok _

omit [DecidableEq K] in
theorem calm_combine4 (e0 e1 e2 e3 : List K) (a0 a1 a2 a3 : K) : ∀ l, Calm (combine4 e0 e1 e2 e3 a0 a1 a2 a3 l)
  | [] => calm_ok _
  | i :: l => by
    rw [combine4]
    exact calm_bind (calm_idx _ _) fun _ _ => calm_bind (calm_idx _ _) fun _ _ => calm_bind (calm_idx _ _) fun _ _ => calm_bind (calm_idx _ _) fun _ _ =>
      calm_bind (calm_combine4 e0 e1 e2 e3 a0 a1 a2 a3 l) fun _ _ => calm_ok _

theorem calm_interp4Loop (inv : List K) : ∀ i l, Calm (interp4Loop inv i l)
  | _, [] => calm_ok _
  | i, (ys, eqs) :: rest => by
    rw [interp4Loop]
    refine calm_bind ?_ fun _ _ => calm_bind (calm_interp4Loop inv (i + 1) rest) fun _ _ => calm_ok _
    rw [interp4Finish]
    exact calm_bind (calm_idx _ _) fun _ _ => calm_bind (calm_idx _ _) fun _ _ => calm_bind (calm_idx _ _) fun _ _ => calm_bind (calm_idx _ _) fun _ _ =>
      calm_bind (calm_idx _ _) fun _ _ => calm_bind (calm_idx _ _) fun _ _ => calm_bind (calm_idx _ _) fun _ _ => calm_bind (calm_idx _ _) fun _ _ =>
      calm_bind (calm_combine4 _ _ _ _ _ _ _ _ _) fun _ _ => calm_ok _

theorem calm_multi4 (xs ys : List (List K)) : Calm (multiInterp4 xs ys) := by
  rw [multiInterp4]
  refine calm_bind (calm_map _ fun s _ => calm_bind ?_ fun _ _ => calm_ok _) fun _ _ => calm_bind (calm_multiInv _) fun _ _ => calm_interp4Loop _ _ _
  rw [interp4Data]
  exact calm_bind (calm_idx _ _) fun _ _ => calm_bind (calm_idx _ _) fun _ _ => calm_bind (calm_idx _ _) fun _ _ => calm_bind (calm_idx _ _) fun _ _ => calm_ok _

theorem calm_interp2 (xs ys : List K) : Calm (lagrangeInterp2 xs ys) := by
  rw [lagrangeInterp2]
  exact calm_bind (calm_idx _ _) fun _ _ => calm_bind (calm_idx _ _) fun _ _ => calm_bind (calm_div _ _) fun _ _ => calm_bind (calm_idx _ _) fun _ _ =>
    calm_bind (calm_idx _ _) fun _ _ => calm_bind (calm_idx _ _) fun _ _ => calm_bind (calm_idx _ _) fun _ _ => calm_bind (calm_idx _ _) fun _ _ =>
    calm_bind (calm_idx _ _) fun _ _ => calm_ok _

end interp

/-! ### The proximity test -/

variable {p : Nat} [hp : Fact p.Prime]

theorem calm_query (blake : Bytes → Bytes) (root root2 : Bytes) (w : Zp p) (qr : List (Zp p)) (rq : Nat) (brs : List (List (List Bytes))) (i y : Nat) :
    Calm (query blake root root2 w qr rq brs i y) := by
  rw [query]
  exact calm_bind (calm_idx _ _) fun _ _ => calm_bind (calm_map _ fun _ _ => calm_branchInt _ _ _ _) fun _ _ => calm_bind (calm_idx _ _) fun _ _ =>
    calm_bind (calm_branchInt _ _ _ _) fun _ _ => calm_ok _

theorem calm_layer (blake : Bytes → Bytes) (hb : ∀ x, blake x ≠ []) (qr : List (Zp p)) (root : Bytes) (w : Zp p) (r e f : Nat) (it : Item) :
    Calm (verifyLayer blake qr root w r e f it) := by
  rw [verifyLayer]
  exact calm_bind (calm_indices blake hb _ _ _ _) fun _ _ => calm_bind (calm_map _ fun _ _ => calm_query _ _ _ _ _ _ _ _ _) fun _ _ =>
    calm_bind (calm_multi4 _ _) fun _ _ => calm_bind (calm_map _ fun _ _ => calm_assert _) fun _ _ => calm_ok _

theorem calm_layers (blake : Bytes → Bytes) (hb : ∀ x, blake x ≠ []) (qr : List (Zp p)) (e f : Nat) : ∀ (l : List Item) (root : Bytes) (w : Zp p) (d r : Nat),
    Calm (verifyLayers blake qr e f l root w d r)
  | [], _, _, _, _ => calm_ok _
  | it :: l, root, w, d, r => by
    rw [verifyLayers]
    exact calm_bind (calm_layer blake hb _ _ _ _ _ _ _) fun _ _ => calm_layers blake hb qr e f l _ _ _ _

theorem layers_pow (blake : Bytes → Bytes) (qr : List (Zp p)) (e f : Nat) (l : List Item) : ∀ (root : Bytes) (w : Zp p) (d r : Nat) (o : Bytes × Zp p × Nat),
    verifyLayers blake qr e f l root w d r = .ok o → ∃ j, o.2.1 = w ^ j := by
  induction l with
  | nil =>
    intro root w d r o h
    cases h
    exact ⟨1, (pow_one w).symm⟩
  | cons it l ih =>
    intro root w d r o h
    rw [verifyLayers] at h
    obtain ⟨_, _, h⟩ := bind_inv h
    obtain ⟨j, hj⟩ := ih _ _ _ _ o h
    exact ⟨4 * j, by rw [hj, pow_mul]⟩

theorem calm_last (fuel : Nat) (blake : Bytes → Bytes) (root : Bytes) (w : Zp p) (d e : Nat) (last : List Bytes) (ho : orderOf w ≠ 0) (hf : orderOf w ≤ fuel) :
    Calm (verifyLast fuel blake root w d e last) := by
  rw [verifyLast]
  refine calm_bind (calm_assert _) fun _ _ => calm_bind (calm_merkelize _ _ fun x hx => ?_) fun _ _ => calm_bind (calm_idx _ _) fun _ _ =>
    calm_bind (calm_assert _) fun _ _ => calm_bind ?_ fun _ _ => calm_bind (calm_map _ fun _ _ => calm_idx _ _) fun _ _ =>
    calm_bind (calm_map _ fun _ _ => calm_idx _ _) fun _ _ => calm_bind (calm_interp _ _) fun _ _ => calm_bind (calm_map _ fun _ _ => ?_) fun _ _ => calm_ok _
  · obtain ⟨n, _, rfl⟩ := List.mem_map.1 hx
    rw [Merkle.Leaf.encode, intToBytes]
    split
    · exact calm_error (.inr (.inr (.inr rfl)))
    · exact calm_ok _
  · rw [Utils.getPowerCycle_ok w ho fuel (by omega)]
    exact calm_ok _
  · exact calm_bind (calm_idx _ _) fun _ _ => calm_bind (calm_idx _ _) fun _ _ => calm_assert _

theorem calm_verify (fuel : Nat) (blake : Bytes → Bytes) (hb : ∀ x, blake x ≠ []) (prf : FriProof) (root : Bytes) (w : Zp p) (k : Nat) (hw : orderOf w = 2 ^ k)
    (hf : 2 ^ k ≤ fuel) (d e f : Nat) : Calm (verify fuel blake prf root w d e f) := by
  rw [verify]
  refine calm_bind ?_ fun r _ => calm_bind (calm_layers blake hb _ _ _ _ _ _ _ _) fun o ho => ?_
  · rw [rou_ok k fuel w 1 hw (lt_of_lt_of_le Nat.lt_two_pow_self hf)]
    exact calm_ok _
  · obtain ⟨j, hj⟩ := layers_pow _ _ _ _ _ _ _ _ _ _ ho
    obtain ⟨root', w', d'⟩ := o
    have hd : orderOf w' ∣ 2 ^ k := by
      simp only at hj
      rw [hj, ← hw]
      exact orderOf_pow_dvd j
    have h1 : 0 < orderOf w' := Nat.pos_of_dvd_of_pos hd (by positivity)
    have h2 : orderOf w' ≤ 2 ^ k := Nat.le_of_dvd (by positivity) hd
    exact calm_bind (calm_last _ _ _ _ _ _ _ (by omega) (by omega)) fun _ _ => calm_ok _

theorem verify_true {fuel : Nat} {blake : Bytes → Bytes} {prf : FriProof} {root : Bytes} {w : Zp p} {d e f : Nat} {b : Bool}
    (h : verify fuel blake prf root w d e f = .ok b) : b = true := by
  rw [verify] at h
  obtain ⟨_, _, h⟩ := bind_inv h
  obtain ⟨_, _, h⟩ := bind_inv h
  obtain ⟨_, _, h⟩ := bind_inv h
  cases h
  rfl

/-! ### STARKs -/

theorem calm_call (n : Nat) (f : Mv.Dict (Zp p)) (vals : List (Zp p)) : Calm (Mv.call n f vals) := by
  have mono : ∀ (t : Mv.Tup) (i : Nat) (a : Zp p), Calm (Mv.monoLoop vals t i a) := by
    intro t
    induction t with
    | nil => intro i a; exact calm_ok _
    | cons e es ih =>
      intro i a
      rw [Mv.monoLoop]
      exact calm_bind (calm_idx _ _) fun _ _ => ih _ _
  have loop : ∀ (d : Mv.Dict (Zp p)) (y : Zp p), Calm (Mv.callLoop vals d y) := by
    intro d
    induction d with
    | nil => intro y; exact calm_ok _
    | cons tc d ih =>
      intro y
      rw [Mv.callLoop]
      exact calm_bind (mono _ _ _) fun _ _ => ih _
  rw [Mv.call]
  exact calm_bind (calm_assert _) fun _ _ => loop _ _

theorem calm_pyLast {α : Type _} (l : List α) : Calm (pyLast l) := by
  rw [pyLast]
  split
  · exact calm_ok _
  · exact calm_error (.inr (.inl rfl))

theorem calm_at {φ : Type _} (blake : Bytes → Bytes) (S : Params (Zp p)) (W : List (List (Zp p))) (boundary : List (Nat × Nat × Zp p)) (pr : Proof φ) (i pos : Nat) :
    Calm (verifyAt blake S W boundary pr i pos) := by
  rw [verifyAt]
  refine calm_bind (calm_idx _ _) fun _ _ => calm_bind (calm_branch _ _ _ _) fun _ _ => calm_bind (calm_idx _ _) fun _ _ => calm_bind (calm_branch _ _ _ _) fun _ _ =>
    calm_bind (calm_idx _ _) fun _ _ => calm_bind (calm_branchInt _ _ _ _) fun _ _ => calm_bind (calm_div _ _) fun _ _ => calm_bind ?_ fun _ _ =>
    calm_bind (calm_map _ fun _ _ => ?_) fun _ _ => calm_bind (calm_map _ fun _ _ => ?_) fun _ _ => calm_ok _
  · rw [Air.nextState]
    exact calm_map _ fun _ _ => calm_bind (calm_idx _ _) fun _ _ => calm_call _ _ _
  · rw [checkTransition]
    exact calm_bind (calm_idx _ _) fun _ _ => calm_bind (calm_idx _ _) fun _ _ => calm_bind (calm_idx _ _) fun _ _ => calm_assert _
  · rw [checkBoundary]
    exact calm_bind (calm_idx _ _) fun _ _ => calm_bind (calm_idx _ _) fun _ _ => calm_bind (calm_pyLast _) fun _ _ => calm_bind (calm_interp2 _ _) fun _ _ =>
      calm_bind (calm_idx _ _) fun _ _ => calm_bind (calm_idx _ _) fun _ _ => calm_assert _

theorem calm_stark {φ : Type _} (blake : Bytes → Bytes) (hb : ∀ x, blake x ≠ []) (fv : φ → Bytes → Zp p → Nat → Nat → Py Bool) (S : Params (Zp p)) (hS : S.polys ≠ [])
    (W : List (List (Zp p))) (boundary : List (Nat × Nat × Zp p)) (pr : Proof φ) (hf : ∀ root d e, Calm (fv pr.fri root S.G2 d e)) :
    Calm (verifyProof blake fv S W boundary pr) := by
  rw [verifyProof]
  refine calm_bind ?_ fun _ _ => calm_bind (hf _ _ _) fun _ _ => calm_bind (calm_assert _) fun _ _ => calm_bind (calm_indices blake hb _ _ _ _) fun _ _ =>
    calm_bind (calm_map _ fun _ _ => calm_at _ _ _ _ _ _ _) fun _ _ => calm_ok _
  rw [Air.getDegree]
  cases h : S.polys with
  | nil => exact absurd h hS
  | cons a l => exact calm_ok _

theorem stark_true {φ : Type _} {blake : Bytes → Bytes} {fv : φ → Bytes → Zp p → Nat → Nat → Py Bool} {S : Params (Zp p)}
    {W : List (List (Zp p))} {boundary : List (Nat × Nat × Zp p)} {pr : Proof φ} {b : Bool} (h : verifyProof blake fv S W boundary pr = .ok b) : b = true := by
  rw [verifyProof] at h
  obtain ⟨_, _, h⟩ := bind_inv h
  obtain ⟨_, _, h⟩ := bind_inv h
  obtain ⟨_, _, h⟩ := bind_inv h
  obtain ⟨_, _, h⟩ := bind_inv h
  obtain ⟨_, _, h⟩ := bind_inv h
  cases h
  rfl

end Verif.Refusals
