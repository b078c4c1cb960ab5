import Verif.Model.ElementBytes
import Verif.Proofs.Bytes
import Verif.Proofs.FiniteField
import Verif.Props.Merkle
import Verif.Props.Apr
/-!
# C112: byte encodings of polynomials and of elements of extension fields
-/

namespace Verif.Props
open ElementBytes

theorem blocks_concat : ∀ (L : List Int), (∀ a ∈ L, 0 ≤ a ∧ a < 2 ^ 256) → ∃ b, concat32 L = .ok b ∧ b.length = 32 * L.length ∧
    blocks L.length b = L
  | [], _ => ⟨[], rfl, rfl, rfl⟩
  | a :: L, h => by
    obtain ⟨b, h1, h2, h3⟩ := blocks_concat L fun x hx => h x (by simp [hx])
    obtain ⟨a0, a1⟩ := h a (by simp)
    have e : Modp.toBytes a = .ok (beDigits 32 a.toNat) := by
      rw [Modp.toBytes, intToBytes, if_neg]
      norm_num at a1 ⊢
      omega
    have hl : (beDigits 32 a.toNat).length = 32 := beDigits_length 32 _
    refine ⟨beDigits 32 a.toNat ++ b, by simp [concat32, e, h1, bind, Except.bind], by simp [hl, h2]; ring, ?_⟩
    rw [List.length_cons, blocks, List.take_left' hl, List.drop_left' hl, h3, Modp.mkBytes, fromBytes_beDigits]
    · simp [a0]
    · norm_num at a1 ⊢
      omega

theorem stripInts_eq {L : List Int} (h : ∀ a, L.getLast? = some a → a ≠ 0) : stripInts L = L := by
  unfold stripInts
  have h' : ∀ a, L.reverse.head? = some a → a ≠ 0 := fun a ha => h a (by rwa [List.head?_reverse] at ha)
  cases hr : L.reverse with
  | nil => simpa using (List.reverse_eq_nil_iff.1 hr).symm
  | cons a R =>
    have := h' a (by rw [hr]; rfl)
    rw [List.dropWhile_cons_of_neg (by simpa [Modp.eq] using this), ← hr, List.reverse_reverse]

/-- **C112** (reading).  From the 32-byte encodings of canonical coefficients, in increasing order, `Polynomial(bytes)` and `Fq(bytes)`
give back the coefficients; a byte string of any other length raises `ValueError`.  MISSING: no method writes that byte string
(`C112_to_bytes_refuted`). -/
theorem C112_read_partial (L : List Int) (h : ∀ a ∈ L, 0 ≤ a ∧ a < 2 ^ 256) (hc : ∀ a, L.getLast? = some a → a ≠ 0) :
    (∃ b, concat32 L = .ok b ∧ polyOfBytes b = .ok L ∧ fqOfBytes b = .ok L) ∧
    ∀ c : Bytes, c.length % 32 ≠ 0 → polyOfBytes c = .error .valueError ∧ fqOfBytes c = .error .valueError := by
  obtain ⟨b, h1, h2, h3⟩ := blocks_concat L h
  have e : polyOfBytes b = .ok L := by
    have : b.length / 32 = L.length := by omega
    rw [polyOfBytes, if_neg (by omega), this, h3, stripInts_eq hc]
  exact ⟨⟨b, h1, e, e⟩, fun c hc => ⟨by rw [polyOfBytes, if_pos hc], by rw [fqOfBytes, polyOfBytes, if_pos hc]⟩⟩

example : ∃ b, concat32 [3, 0, 5] = .ok b ∧ polyOfBytes b = .ok [3, 0, 5] := by
  obtain ⟨⟨b, h1, h2, -⟩, -⟩ := C112_read_partial [3, 0, 5] (by decide) (by decide)
  exact ⟨b, h1, h2⟩

/-- **C112** fails for every polynomial and for every element of an extension field: `to_bytes()` raises `TypeError` unless it is zero,
and then returns None. -/
theorem C112_to_bytes_refuted {α : Type} (poly : List α) :
    (poly ≠ [] → polyToBytes poly = .error .typeError ∧ fqToBytes poly = .error .typeError) ∧
    (poly = [] → polyToBytes poly = .ok none ∧ fqToBytes poly = .ok none) := by
  cases poly <;> simp [polyToBytes, fqToBytes]

example (p : Nat) (a b : Zp p) : polyToBytes [a, b] = .error .typeError ∧ polyToBytes ([] : List (Zp p)) = .ok none := ⟨rfl, rfl⟩

theorem encodeLeaves_error {e : PyErr} : ∀ (L : List Merkle.Leaf) (nodes : List Bytes), L ≠ [] → (∀ x ∈ L, x.encode = .error e) →
    Merkle.encodeLeaves L nodes = .error e
  | [], _, h, _ => absurd rfl h
  | x :: L, nodes, _, h => by simp [Merkle.encodeLeaves, h x (by simp), bind, Except.bind]

/-- **C112** (Merkle trees).  No list of four elements or more of an extension field (or of polynomials) can be put in a Merkle tree:
`merkelize` raises `TypeError`. -/
theorem C112_merkle_refuted {α : Type} (H : Bytes → Bytes) (polys : List (List α)) (h4 : 4 ≤ polys.length) :
    Merkle.merkelize H (polys.map fun a => leafOf (fqToBytes a)) = .error .typeError := by
  have hlen : 4 ≤ (polys.map fun a => leafOf (fqToBytes a)).length := by simpa using h4
  have henc : ∀ x ∈ polys.map fun a => leafOf (fqToBytes a), x.encode = .error .typeError := by
    intro x hx
    obtain ⟨a, -, rfl⟩ := List.mem_map.1 hx
    cases a <;> rfl
  generalize polys.map (fun a => leafOf (fqToBytes a)) = L at henc hlen
  obtain ⟨B, h1, h2, h3⟩ := Merkle.permute4Loop_spec L (L.length / 4) (by omega) (List.range (L.length / 4)) [] (by simp)
  rw [List.nil_append] at h1
  rw [List.length_range] at h2
  have hB : ∀ x ∈ B, x.encode = .error .typeError := by
    intro x hx
    obtain ⟨k, hk, rfl⟩ := List.getElem_of_mem hx
    have h5 : k / 4 < L.length / 4 := by omega
    have := h3 (k / 4) (k % 4) (k / 4) (by simp [h5]) (by omega)
    rw [Nat.div_add_mod, List.getElem?_eq_getElem hk] at this
    exact henc _ (List.mem_of_getElem? this.symm)
  have hne : B ≠ [] := by
    rintro rfl
    simp at h2
    omega
  simp [Merkle.merkelize, Merkle.permute4, h1, bind, Except.bind, encodeLeaves_error B _ hne hB]

example (H : Bytes → Bytes) (p : Nat) (a b c d : List (Zp p)) :
    Merkle.merkelize H [leafOf (fqToBytes a), leafOf (fqToBytes b), leafOf (fqToBytes c), leafOf (fqToBytes d)] = .error .typeError :=
  C112_merkle_refuted H [a, b, c, d] (by simp)

section
variable {p : Nat} [hp : Fact p.Prime] {f : List (Zp p)} [hf : FF.IsModulus f]
open Poly FF

/-- **C112** (no reduction).  `Fq(bytes)` keeps what it reads: the byte string of the modulus gives an object that stands for the zero of
the field but does not equal it. -/
theorem C112_unreduced_refuted (hlt : p < 2 ^ 256) :
    ∃ (b : Bytes) (g : List (Zp p)), fqOfBytes b = .ok (g.map fun c => c.1) ∧ toPoly f ∣ toPoly g ∧ fqEq g (0 : Fq f).1 = false := by
  obtain ⟨⟨b, -, -, h⟩, -⟩ := C112_read_partial (f.map fun c => c.1) (by
    intro a ha
    obtain ⟨c, -, rfl⟩ := List.mem_map.1 ha
    have h1 := c.2.2
    exact ⟨c.2.1, by omega⟩) (by
    intro a ha
    rw [List.getLast?_map, Option.map_eq_some_iff] at ha
    obtain ⟨c, hc, rfl⟩ := ha
    exact fun h => hf.canon c hc (Subtype.ext h))
  refine ⟨b, f, h, dvd_rfl, ?_⟩
  have h2 := IsModulus.two_le f
  have h3 : f ≠ (0 : Fq f).1 := by
    intro h
    have := (0 : Fq f).2.2
    rw [← h] at this
    omega
  exact Bool.eq_false_iff.2 fun h => h3 (Poly.eq_iff.1 h)

end

example : ∃ (b : Bytes) (g : List (Zp 17)), fqOfBytes b = .ok (g.map fun c => c.1) ∧
    FF.fqEq g (0 : FF.Fq ([14, 0, 1] : List (Zp 17))).1 = false := by
  obtain ⟨b, g, h1, -, h2⟩ := C112_unreduced_refuted (f := ([14, 0, 1] : List (Zp 17))) (by norm_num)
  exact ⟨b, g, h1, h2⟩


end Verif.Props
