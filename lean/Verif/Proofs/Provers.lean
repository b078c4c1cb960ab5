import Verif.Proofs.Birthday
import Verif.Proofs.Merkle
import Verif.Proofs.Air
import Verif.Spec.Merkle
/-!
# Provers against Merkle trees
-/

namespace Verif.Provers
open Birthday Merkle

/-- Folding a branch, as a program. -/
def foldProg : List Bytes → Nat → Bytes → Prog Unit
  | [], _, _ => .done ()
  | p :: ps, index, v => .ask (if index % 2 = 1 then p ++ v else v ++ p) fun y => foldProg ps (index / 2) y.1

theorem foldProg_asked (h : Bytes → Digest) : ∀ (ps : List Bytes) (index : Nat) (v : Bytes),
    (foldProg ps index v).asked h = hashedStrings (asBytes h) ps index v
  | [], _, _ => rfl
  | p :: ps, index, v => by
    simp only [foldProg, Prog.asked, hashedStrings]
    rw [foldProg_asked h ps]
    rfl

/-- Verifying a branch, as a program. -/
def verifyProg (index : Nat) (proof : List Bytes) : Prog Unit :=
  let n := 2 ^ (proof.length - 1)
  foldProg proof.tail (index / (n / 4) + 4 * (index % (n / 4)) + n) (proof.headD [])

theorem verifyProg_asked (h : Bytes → Digest) (index : Nat) (proof : List Bytes) :
    (verifyProg index proof).asked h = hashedByVerification (asBytes h) index proof := foldProg_asked h _ _ _

theorem hashedStrings_length (H : Bytes → Bytes) : ∀ (ps : List Bytes) (index : Nat) (v : Bytes), (hashedStrings H ps index v).length = ps.length
  | [], _, _ => rfl
  | p :: ps, index, v => by simp only [hashedStrings, List.length_cons]; rw [hashedStrings_length H ps]

theorem verifyProg_length (h : Bytes → Digest) (index : Nat) (proof : List Bytes) : ((verifyProg index proof).asked h).length = proof.length - 1 := by
  rw [verifyProg_asked, hashedByVerification, hashedStrings_length, List.length_tail]

theorem hashedStrings_short (h : Bytes → Digest) (n : Nat) (hn : 64 ≤ n) : ∀ (ps : List Bytes) (index : Nat) (v : Bytes),
    (∀ p ∈ ps, 2 * p.length ≤ n) → 2 * v.length ≤ n → ∀ s ∈ hashedStrings (asBytes h) ps index v, s.length ≤ n
  | [], _, _, _, _, s, hs => by simp [hashedStrings] at hs
  | p :: ps, index, v, hp, hv, s, hs => by
    have hp1 := hp p (by simp)
    simp only [hashedStrings, List.mem_cons] at hs
    rcases hs with rfl | hs
    · split <;> rw [List.length_append] <;> omega
    · refine hashedStrings_short h n hn ps _ _ (fun p' h' => hp p' (by simp [h'])) ?_ s hs
      rw [asBytes, (h _).2]
      omega

theorem hashedByVerification_short (h : Bytes → Digest) (n : Nat) (hn : 64 ≤ n) (index : Nat) (proof : List Bytes) (hp : ∀ p ∈ proof, 2 * p.length ≤ n) :
    ∀ s ∈ hashedByVerification (asBytes h) index proof, s.length ≤ n := by
  refine hashedStrings_short h n hn _ _ _ (fun p h' => hp p (List.mem_of_mem_tail h')) ?_
  cases proof with
  | nil => simp
  | cons v ps => exact hp v (by simp)

/-- Verifying many branches, as a program. -/
def verifyAll : List Opening → Prog Unit
  | [] => .done ()
  | o :: os => bind (verifyProg o.index o.branch) fun _ => verifyAll os

theorem verifyAll_length (h : Bytes → Digest) (k : Nat) : ∀ os : List Opening, (∀ o ∈ os, o.branch.length = k + 1) →
    ((verifyAll os).asked h).length = os.length * k
  | [], _ => by simp [verifyAll, Prog.asked]
  | o :: os, ho => by
    rw [verifyAll, asked_bind, List.length_append, verifyProg_length, verifyAll_length h k os fun o' h' => ho o' (by simp [h']), ho o (by simp), List.length_cons]
    simp only [Nat.add_sub_cancel]
    ring

theorem verifyAll_mem (h : Bytes → Digest) : ∀ (os : List Opening) (o : Opening), o ∈ os →
    ∀ s ∈ hashedByVerification (asBytes h) o.index o.branch, s ∈ (verifyAll os).asked h
  | [], o, ho, _, _ => by simp at ho
  | o' :: os, o, ho, s, hs => by
    rw [verifyAll, asked_bind, List.mem_append]
    rcases List.mem_cons.1 ho with rfl | ho
    · left; rw [verifyProg_asked]; exact hs
    · right; exact verifyAll_mem h os o ho s hs

/-- The loop that fills in the nodes of a tree, as a program. -/
def treeProg : Nat → List Bytes → Prog (List Bytes)
  | 0, nodes => .done nodes
  | i + 1, nodes => .ask ((nodes[(i + 1) * 2]?).getD [] ++ (nodes[(i + 1) * 2 + 1]?).getD []) fun y => treeProg i (nodes.set (i + 1) y.1)

theorem treeProg_length (h : Bytes → Digest) : ∀ (i : Nat) (nodes : List Bytes), ((treeProg i nodes).asked h).length = i
  | 0, _ => rfl
  | i + 1, nodes => by simp only [treeProg, Prog.asked, List.length_cons]; rw [treeProg_length h i]

theorem treeProg_run (h : Bytes → Digest) : ∀ (i : Nat) (nodes tree : List Bytes), merkleLoop (asBytes h) i nodes = .ok tree → (treeProg i nodes).run h = tree
  | 0, nodes, tree, e => by cases e; rfl
  | i + 1, nodes, tree, e => by
    simp only [merkleLoop, Air.bind_iff, Air.pyIdx_iff] at e
    obtain ⟨a, ha, b, hb, e⟩ := e
    simp only [treeProg, Prog.run, ha, hb, Option.getD_some]
    exact treeProg_run h i _ _ e

theorem treeProg_keeps (h : Bytes → Digest) : ∀ (i : Nat) (nodes : List Bytes) (j : Nat), i < j → ((treeProg i nodes).run h)[j]? = nodes[j]?
  | 0, _, _, _ => rfl
  | i + 1, nodes, j, hj => by
    simp only [treeProg, Prog.run]
    rw [treeProg_keeps h i _ j (by omega), List.getElem?_set_ne (by omega)]

theorem treeProg_mem (h : Bytes → Digest) : ∀ (i : Nat) (nodes : List Bytes) (j : Nat), 1 ≤ j → j ≤ i →
    ((((treeProg i nodes).run h)[2 * j]?).getD [] ++ (((treeProg i nodes).run h)[2 * j + 1]?).getD []) ∈ (treeProg i nodes).asked h
  | 0, _, _, h1, h2 => by omega
  | i + 1, nodes, j, h1, h2 => by
    simp only [treeProg, Prog.run, Prog.asked]
    by_cases hj : j ≤ i
    · exact List.mem_cons_of_mem _ (treeProg_mem h i _ j h1 hj)
    · have : j = i + 1 := by omega
      subst this
      rw [treeProg_keeps h i _ _ (by omega), treeProg_keeps h i _ _ (by omega), List.getElem?_set_ne (by omega), List.getElem?_set_ne (by omega),
        Nat.mul_comm 2 (i + 1)]
      exact List.mem_cons_self

/-- The tree is built by the same program for every hash function. -/
theorem merkelize_prog (L : List Leaf) (hL : 4 ∣ L.length) : ∃ nodes, ∀ (h : Bytes → Digest) (tree : List Bytes), tree.length = 2 * L.length →
    merkelize (asBytes h) L = .ok tree → (treeProg (L.length - 1) nodes).run h = tree ∧
      ∀ s, HashedInTree tree s → s ∈ (treeProg (L.length - 1) nodes).asked h := by
  obtain ⟨P, hP, hPl, -⟩ := permute4_spec L
  have hPl : P.length = L.length := by omega
  cases hn : encodeLeaves P (List.replicate L.length []) with
  | error e =>
    refine ⟨[], fun h tree _ ht => ?_⟩
    simp only [merkelize, hP, Air.bind_iff] at ht
    obtain ⟨P', hP', nodes, hn', ht⟩ := ht
    cases hP'
    rw [hPl, hn] at hn'
    cases hn'
  | ok nodes =>
    refine ⟨nodes, fun h tree hl ht => ?_⟩
    simp only [merkelize, hP, Air.bind_iff] at ht
    obtain ⟨P', hP', nodes', hn', ht⟩ := ht
    cases hP'
    rw [hPl, hn] at hn'
    cases hn'
    rw [hPl] at ht
    have hr := treeProg_run h _ _ _ ht
    refine ⟨hr, ?_⟩
    rintro s ⟨j, a, b, hj, ha, hb, rfl⟩
    have hjl := (List.getElem?_eq_some_iff.1 hb).1
    have := treeProg_mem h (L.length - 1) nodes j hj (by omega)
    rw [hr, ha, hb] at this
    exact this

theorem perm_surj {n y : Nat} (hn : 4 ∣ n) (hy : y < n) : ∃ x, x < n ∧ perm n x = y := by
  obtain ⟨k, rfl⟩ := hn
  have hk : 4 * k / 4 = k := by omega
  have h4 : y / 4 < k := by omega
  refine ⟨y / 4 + y % 4 * k, ?_, ?_⟩
  · have : y % 4 * k ≤ 3 * k := Nat.mul_le_mul_right _ (by omega)
    omega
  · unfold perm
    rw [hk, Nat.add_mul_div_right _ _ (by omega), Nat.add_mul_mod_self_right, Nat.div_eq_of_lt h4, Nat.mod_eq_of_lt h4]
    omega

/-- The strings hashed in building a tree are short, if the items are. -/
theorem hashedInTree_short (h : Bytes → Digest) (n : Nat) (hn : 64 ≤ n) (L : List Leaf) (bs : List Bytes) (hL : 4 ∣ L.length) (h0 : L ≠ [])
    (henc : L.map Leaf.encode = bs.map .ok) (hbs : ∀ b ∈ bs, 2 * b.length ≤ n) (tree : List Bytes) (ht : merkelize (asBytes h) L = .ok tree) :
    tree.length = 2 * L.length ∧ ∀ s, HashedInTree tree s → s.length ≤ n := by
  obtain ⟨tree', h1, h2, h3, h4⟩ := merkelize_spec (asBytes h) L bs hL h0 henc
  rw [ht] at h1
  cases h1
  have key : ∀ j a, 1 ≤ j → tree[j]? = some a → 2 * a.length ≤ n := by
    intro j a hj ha
    have hjl := (List.getElem?_eq_some_iff.1 ha).1
    by_cases hlt : j < L.length
    · obtain ⟨_, _, -, -, he⟩ := h4 j hj hlt
      rw [he] at ha
      cases ha
      rw [asBytes, (h _).2]
      omega
    · obtain ⟨x, hx, hp⟩ := perm_surj hL (y := j - L.length) (by omega)
      have := h3 x hx
      rw [hp, show L.length + (j - L.length) = j by omega, ha] at this
      exact hbs a (List.mem_of_getElem? this.symm)
  refine ⟨h2, ?_⟩
  rintro s ⟨j, a, b, hj, ha, hb, rfl⟩
  have := key _ _ (by omega) ha
  have := key _ _ (by omega) hb
  rw [List.length_append]
  omega

end Verif.Provers
