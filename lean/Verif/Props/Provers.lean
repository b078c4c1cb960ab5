import Verif.Proofs.Provers
import Verif.Props.Merkle
/-!
# Provers with a limited number of calls to the hash function

C149.  A prover that calls a random hash function at most `q` times cannot open a commitment in two ways, or open an honest commitment to
something else, but with a probability of the order of `q² / 2^257`.
-/

namespace Verif.Props
open Merkle Birthday Provers

/-- **C149** (binding).  A prover is any program that calls the hash function at most `q` times and then shows at most `r` openings, with branches of
`k + 1` strings. The hash function is drawn at random among the functions from strings of at most `n` bytes to digests. The probability that
two of the openings are for the same root and position, are both accepted by `verify_branch`, and give different leaves of the same length, is at
most `m (m - 1) / 2^257`, where `m = q + r k`. -/
theorem C149_binding (n q r k : Nat) (hn : 64 ≤ n) (other : Bytes → Digest) (prover : Prog (List Opening))
    (hq : ∀ H : Short n → Digest, (prover.asked (drawn H other)).length ≤ q) :
    fraction (fun H : Short n → Digest =>
      let shown := prover.run (drawn H other)
      shown.length ≤ r ∧ (∀ o ∈ shown, o.branch.length = k + 1 ∧ ∀ s ∈ o.branch, 2 * s.length ≤ n) ∧
      ∃ o ∈ shown, ∃ o' ∈ shown, o.root = o'.root ∧ o.index = o'.index ∧ ∃ b b', b.length = b'.length ∧ b ≠ b' ∧
        verifyBranch (asBytes (drawn H other)) o.root o.index o.branch = .ok b ∧
        verifyBranch (asBytes (drawn H other)) o'.root o'.index o'.branch = .ok b') ≤
      ((q + r * k : ℕ) * ((q + r * k : ℕ) - 1) : ℚ) / 2 ^ 257 := by
  classical
  refine prog_collision n (q + r * k) other
    (bind prover fun os => if os.length ≤ r ∧ ∀ o ∈ os, o.branch.length = k + 1 then verifyAll os else .done ()) ?_ _ ?_
  · intro H
    rw [asked_bind, List.length_append]
    refine Nat.add_le_add (hq H) ?_
    split
    · rename_i hc
      rw [verifyAll_length _ k _ hc.2]
      exact Nat.mul_le_mul_right _ hc.1
    · simp [Prog.asked]
  · rintro H ⟨h1, h2, o, ho, o', ho', hr, hi, b, b', hlen, hne, hv, hv'⟩
    have hmem : ∀ o ∈ prover.run (drawn H other), ∀ s ∈ hashedByVerification (asBytes (drawn H other)) o.index o.branch,
        s.length ≤ n ∧ s ∈ (bind prover fun os => if os.length ≤ r ∧ ∀ o ∈ os, o.branch.length = k + 1 then verifyAll os else .done ()).asked (drawn H other) := by
      intro o ho s hs
      refine ⟨hashedByVerification_short _ n hn _ _ (h2 o ho).2 s hs, ?_⟩
      rw [asked_bind, List.mem_append, if_pos ⟨h1, fun o ho => (h2 o ho).1⟩]
      exact .inr (verifyAll_mem _ _ o ho s hs)
    rw [← hr, ← hi] at hv'
    rcases C31_merkle_binding_partial (asBytes (drawn H other)) 32 (fun s => (drawn H other s).2) o.root o.index o.branch o'.branch b b'
      (by rw [(h2 o ho).1, (h2 o' ho').1]) hlen hv hv' with e | ⟨s, hs, t, ht, hst, he⟩
    · exact absurd e hne
    · rw [hi] at ht
      exact ⟨s, (hmem o ho s hs).2, t, (hmem o' ho' t ht).2, (hmem o ho s hs).1, (hmem o' ho' t ht).1, hst, Subtype.ext he⟩

/-- **C149** (honest commitments). Build the tree over `2^k` items with a random hash function and give all of it to a prover, who then calls the
hash function at most `q` times. The probability that they show a branch of `k + 1` strings for one of the positions which `verify_branch`
accepts with a leaf as long as the item committed to but different from it, is at most `m (m - 1) / 2^257`, where
`m = 2^k - 1 + q + k`. -/
theorem C149_opening (n q k : Nat) (hn : 64 ≤ n) (hk : 2 ≤ k) (other : Bytes → Digest) (L : List Leaf) (bs : List Bytes) (hlen : L.length = 2 ^ k)
    (henc : L.map Leaf.encode = bs.map .ok) (hbs : ∀ b ∈ bs, 2 * b.length ≤ n) (prover : List Bytes → Prog (Nat × List Bytes))
    (hq : ∀ tree, ∀ H : Short n → Digest, ((prover tree).asked (drawn H other)).length ≤ q) :
    fraction (fun H : Short n → Digest => ∃ tree root, merkelize (asBytes (drawn H other)) L = .ok tree ∧ tree[1]? = some root ∧
      let x := ((prover tree).run (drawn H other)).1
      let branch := ((prover tree).run (drawn H other)).2
      x < 2 ^ k ∧ branch.length = k + 1 ∧ (∀ s ∈ branch, 2 * s.length ≤ n) ∧
      ∃ b, verifyBranch (asBytes (drawn H other)) root x branch = .ok b ∧ bs[x]?.map List.length = some b.length ∧ bs[x]? ≠ some b) ≤
      ((2 ^ k - 1 + q + k : ℕ) * ((2 ^ k - 1 + q + k : ℕ) - 1) : ℚ) / 2 ^ 257 := by
  classical
  have hL : 4 ∣ L.length := by
    obtain ⟨m, rfl⟩ := Nat.exists_eq_add_of_le hk
    exact ⟨2 ^ m, by rw [hlen, pow_add]; norm_num⟩
  have h0 : L ≠ [] := by
    intro e
    rw [e] at hlen
    exact absurd hlen.symm (by simp)
  obtain ⟨nodes, hnodes⟩ := merkelize_prog L hL
  refine prog_collision n (2 ^ k - 1 + q + k) other
    (bind (treeProg (L.length - 1) nodes) fun tree => bind (prover tree) fun o => if o.2.length = k + 1 then verifyProg o.1 o.2 else .done ()) ?_ _ ?_
  · intro H
    rw [asked_bind, asked_bind, List.length_append, List.length_append, treeProg_length, hlen, Nat.add_assoc]
    refine Nat.add_le_add_left (Nat.add_le_add (hq _ H) ?_) _
    split
    · rename_i hc
      rw [verifyProg_length, hc, Nat.add_sub_cancel]
    · simp [Prog.asked]
  · rintro H ⟨tree, root, ht, hroot, hx, hbl, hbs', b, hv, hl, hne⟩
    obtain ⟨htl, hts⟩ := hashedInTree_short _ n hn L bs hL h0 henc hbs tree ht
    obtain ⟨hrun, hmem⟩ := hnodes _ tree htl ht
    rcases C31_opening_is_item_partial (asBytes (drawn H other)) 32 (fun s => (drawn H other s).2) L bs k hk hlen henc _ (by rw [hlen]; exact hx) tree root
      ht hroot _ b hbl hl hv with e | ⟨s, hs, t, ht', hst, he⟩
    · exact absurd e hne
    · refine ⟨s, ?_, t, ?_, hashedByVerification_short _ n hn _ _ hbs' s hs, hts t ht', hst, Subtype.ext he⟩
      · rw [asked_bind, hrun, asked_bind, List.mem_append, List.mem_append, if_pos hbl, verifyProg_asked]
        exact .inr (.inr hs)
      · rw [asked_bind, List.mem_append]
        exact .inl (hmem t ht')

/-- A prover who hashes a string, hashes the answer, and shows two openings of the last answer. -/
def simpleProver : Prog (List Opening) :=
  .ask [1, 2] fun y => .ask (y.1 ++ [3]) fun z => .done [⟨z.1, 0, [[1], [2], [3]]⟩, ⟨z.1, 0, [[7], [2], [3]]⟩]

/-- This meets the hypotheses of `C149_binding`: the prover calls the hash function twice, and one opening is always accepted. -/
example (h : Bytes → Digest) : (simpleProver.asked h).length ≤ 2 ∧ ∃ o ∈ simpleProver.run h, verifyBranch (asBytes h) o.root o.index o.branch = .ok [1] := by
  refine ⟨by simp [simpleProver, Prog.asked], _, List.mem_cons_self, ?_⟩
  simp [verifyBranch, getIndexInPermuted, verifyLoop, pyAssert, Bind.bind, Except.bind, asBytes]

/-- What `C149_binding` says of that prover: the two openings are both accepted with a probability of at most `30 / 2^257`. -/
example (other : Bytes → Digest) : fraction (fun H : Short 64 → Digest =>
    verifyBranch (asBytes (drawn H other)) (drawn H other ((drawn H other [1, 2]).1 ++ [3])).1 0 [[7], [2], [3]] = .ok [7]) ≤ 30 / 2 ^ 257 := by
  refine le_trans (Sampling.fraction_mono ?_) (le_trans (C149_binding 64 2 2 2 (by norm_num) other simpleProver (by intro H; simp [simpleProver, Prog.asked])) ?_)
  · intro H hH
    refine ⟨by simp [simpleProver, Prog.run], by simp [simpleProver, Prog.run], _, List.mem_cons_self, _, List.mem_cons_of_mem _ List.mem_cons_self,
      rfl, rfl, [1], [7], rfl, by decide, ?_, hH⟩
    simp [verifyBranch, getIndexInPermuted, verifyLoop, pyAssert, Bind.bind, Except.bind, asBytes]
  · norm_num

/-- The bound is small: `2^64` calls to the hash function and a thousand openings of trees with `2^20` leaves. -/
example : (((2 ^ 64 + 1000 * 20 : ℕ) : ℚ) * (((2 ^ 64 + 1000 * 20 : ℕ) : ℚ) - 1)) / 2 ^ 257 ≤ 1 / 2 ^ 128 := by
  rw [show (2 : ℚ) ^ 257 = 2 ^ 128 * 2 ^ 129 by rw [← pow_add], div_le_div_iff₀ (by positivity) (by positivity)]
  norm_num

/-- This meets the hypotheses of `C149_opening`: four items, and a prover who hashes a node of the tree and shows a branch. -/
example : ∃ (L : List Leaf) (bs : List Bytes) (prover : List Bytes → Prog (Nat × List Bytes)), L.length = 2 ^ 2 ∧ L.map Leaf.encode = bs.map .ok ∧
    (∀ b ∈ bs, 2 * b.length ≤ 64) ∧ (∀ tree, ∀ H : Short 64 → Digest, ∀ other, ((prover tree).asked (drawn H other)).length ≤ 1) :=
  ⟨[.bytes [1], .bytes [2], .bytes [3], .bytes [4]], [[1], [2], [3], [4]], fun tree => .ask (tree.headD []) fun y => .done (0, [[9], [2], y.1]), rfl, rfl,
    by decide, fun _ _ _ => by simp [Prog.asked]⟩

end Verif.Props
