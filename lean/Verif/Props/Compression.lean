import Verif.Proofs.Compression
/-! # C33–C35: proof compression -/

namespace Verif.Props
open Verif.Compression

/-- C33: a FRI proof made of `Clean` byte strings is compressed without an exception, and decompressing gives the same proof, exactly if
two bytes can refer to every repeated entry; otherwise `compress_fri` raises `OverflowError`. -/
theorem C33_compress_fri_iff (prf : List (Bytes × List (List (List Bytes))) × List Bytes) (hclean : ∀ x ∈ friObjects prf, Clean x) :
    (Referable (friEntries prf) → ∃ c, compressFri prf = .ok c ∧ decompressFri c = .ok prf) ∧
      (¬ Referable (friEntries prf) → compressFri prf = .error .overflow) :=
  ⟨compressFri_roundtrip prf hclean, compressFri_overflow prf⟩

/-- C33: every FRI proof made of `Clean` byte strings and at most 65536 objects is compressed without an exception, and
decompressing gives the same proof. -/
theorem C33_compress_fri_roundtrip (prf : List (Bytes × List (List (List Bytes))) × List Bytes)
    (hclean : ∀ x ∈ friObjects prf, Clean x) (hsize : friCount prf ≤ 65536) :
    ∃ c, compressFri prf = .ok c ∧ decompressFri c = .ok prf :=
  compressFri_roundtrip prf hclean (referable_of_length (by rw [friEntries_length]; exact hsize))

/-- A two-item proof with shared objects meets the hypotheses, and its compressed form is computed. -/
example : let prf : List (Bytes × List (List (List Bytes))) × List Bytes :=
      ([([1,2,3], [[[[7],[8]], [[7],[9]]], [[]]]), ([4,5,6], [])], [[7],[0,0,0]])
    (∀ x ∈ friObjects prf, Clean x) ∧ friCount prf ≤ 65536 ∧
    compressFri prf = .ok [dash, [1,2,3], [7], [8], plus, [0,2], [9], [0,4], equal, [0,4], [0,8], [0,0], [4,5,6], slash,
      [0,2], [0,0,0]] := by
  refine ⟨?_, by decide +kernel, by decide +kernel⟩
  intro x hx
  rw [clean_iff]
  revert hx; revert x
  decide +kernel

/-- C34: the same for lists of branches. -/
theorem C34_compress_branches_iff (branches : List (List Bytes)) (hclean : ∀ b ∈ branches, ∀ x ∈ b, Clean x) :
    (Referable (branchEntries branches) → ∃ c, compressBranches branches = .ok c ∧ decompressBranches c = .ok branches) ∧
      (¬ Referable (branchEntries branches) → compressBranches branches = .error .overflow) :=
  ⟨compressBranches_roundtrip branches hclean, compressBranches_overflow branches⟩

/-- C34: in particular with at most 65536 objects. -/
theorem C34_compress_branches_roundtrip (branches : List (List Bytes))
    (hclean : ∀ b ∈ branches, ∀ x ∈ b, Clean x) (hsize : (branches.map fun b => b.length + 1).sum ≤ 65536) :
    ∃ c, compressBranches branches = .ok c ∧ decompressBranches c = .ok branches :=
  compressBranches_roundtrip branches hclean (referable_of_length (by rw [branchEntries_length]; exact hsize))

example : let bs : List (List Bytes) := [[[1],[2,2,2]], [], [[2,2,2],[1]]]
    (∀ b ∈ bs, ∀ x ∈ b, Clean x) ∧ (bs.map fun b => b.length + 1).sum ≤ 65536 ∧
    compressBranches bs = .ok [[1], [2,2,2], dash, [0,2], [0,1], [0,0], [0,2]] := by
  refine ⟨?_, by decide +kernel, by decide +kernel⟩
  intro b hb x hx
  rw [clean_iff]
  revert hx; revert x; revert hb; revert b
  decide +kernel

/-- `n` different entries, and then one that comes twice. -/
def longBranch (n : Nat) : List Bytes := (List.range n).map (fun i => beDigits 32 (i + 1)) ++ [beDigits 32 0, beDigits 32 0]

theorem longBranch_length32 (n : Nat) : ∀ x ∈ longBranch n, x.length = 32 := by
  intro x hx
  rcases List.mem_append.1 hx with hx | hx
  · obtain ⟨i, -, rfl⟩ := List.mem_map.1 hx
    exact beDigits_length _ _
  · simp only [List.mem_cons, List.not_mem_nil, or_false, or_self] at hx
    rw [hx]
    exact beDigits_length _ _

theorem longBranch_not_referable (n : Nat) (hn : 65536 ≤ n) (hn2 : n < 256 ^ 32) : ¬ Referable (branchEntries [longBranch n]) := by
  intro h
  generalize hL : (List.range n).map (fun i => beDigits 32 (i + 1)) = L at *
  have hlen : L.length = n := by rw [← hL]; simp
  have e : branchEntries [longBranch n] = L ++ [beDigits 32 0, beDigits 32 0, sep '-'] := by
    simp [branchEntries, longBranch, hL]
  rw [e] at h
  have h1 := h (n + 1) (beDigits 32 0) (by rw [List.getElem?_append_right (by omega), hlen]; simp) (by
    rw [List.take_append, hlen]
    exact List.mem_append_right _ (by simp))
  rw [List.take_append, List.mem_append] at h1
  have h2 : beDigits 32 0 ∈ L := by
    rcases h1 with h1 | h1
    · exact List.mem_of_mem_take h1
    · rw [hlen, show 65536 - n = 0 by omega] at h1
      simp at h1
  rw [← hL] at h2
  obtain ⟨i, hi, hi2⟩ := List.mem_map.1 h2
  have h3 := congrArg fromBytes hi2
  have := List.mem_range.1 hi
  rw [fromBytes_beDigits _ _ (by omega), fromBytes_beDigits _ _ (by positivity)] at h3
  omega

/-- These meet the hypotheses of `C33_compress_fri_iff`, `C34_compress_branches_iff`: entries that two bytes can refer to, and, with 65536
different entries in front of an entry that comes twice, entries they cannot refer to. -/
example : Referable (friEntries ([([1,2,3], [[[[7],[8]], [[7],[9]]], [[]]]), ([4,5,6], [])], [[7],[0,0,0]])) ∧
    (∀ x ∈ longBranch 65536, x.length = 32) ∧ ¬ Referable (branchEntries [longBranch 65536]) :=
  ⟨referable_of_length (by decide), longBranch_length32 _, longBranch_not_referable _ le_rfl (by decide)⟩

/-- C35: whatever the proof, `compress_fri` either returns a value that decompresses to the input or raises; it never
runs forever. -/
theorem C35_compress_fri_never_corrupts (prf : List (Bytes × List (List (List Bytes))) × List Bytes) :
    compressFri prf ≠ .error .diverge ∧ ∀ c, compressFri prf = .ok c → decompressFri c = .ok prf :=
  ⟨compressFri_total prf, fun _ h => compressFri_sound h⟩

/-- C35 for branches. -/
theorem C35_compress_branches_never_corrupts (branches : List (List Bytes)) :
    compressBranches branches ≠ .error .diverge ∧ ∀ c, compressBranches branches = .ok c → decompressBranches c = .ok branches :=
  ⟨compressBranches_total branches, fun _ h => compressBranches_sound h⟩

/-- Both outcomes occur: a two-byte object makes the compressor raise (its own assertion, or an index error). -/
example : compressBranches [[[0,9]]] = .error .indexError ∧ compressBranches [[[0,1]]] = .error .assertion
    ∧ compressBranches [[[3],[0,0]]] = .error .assertion ∧ compressFri ([], [slash]) = .ok [slash, [0,0]] := by
  decide +kernel

/-- C35, for the decompressors: every list of byte strings, including malformed and hostile ones, is either decoded or
rejected with an exception after finitely many steps. -/
theorem C35_decompress_terminates (proof : List Bytes) :
    decompressFri proof ≠ .error .diverge ∧ decompressBranches proof ≠ .error .diverge :=
  ⟨decompressFri_total proof, decompressBranches_total proof⟩

set_option synthInstance.maxSize 1024 in
example : decompressFri [dash, [1]] = .error .indexError ∧ decompressFri [[1], slash] = .error .assertion
    ∧ decompressBranches [[0,7]] = .error .indexError := by decide +kernel

/-- **C72**. `bin_length` is the total size of the strings plus one byte for each string of 32 bytes. -/
theorem C72_bin_length (c : List Bytes) :
    binLength c = (c.map List.length).sum + (c.filter fun x => x.length == 32).length := by
  induction c with
  | nil => rfl
  | cons x c ih =>
    unfold binLength at ih ⊢
    rw [List.map_cons, List.flatten_cons, List.length_append, ih, List.map_cons, List.sum_cons, List.filter_cons]
    by_cases h : x.length = 32
    · simp [h]; omega
    · simp [h]; omega

example : binLength [List.replicate 32 7, [1, 2, 3]] = 36 := by decide

end Verif.Props
