import Verif.Model.ReedSolomon
import Verif.Proofs.PolyUtils
import Verif.Proofs.Modp
import Mathlib.LinearAlgebra.LinearIndependent.Defs
/-! # AffineSpace -/

set_option linter.unusedSectionVars false

namespace Verif.ReedSolomon
open PolyUtils

section product
variable {α : Type _}

theorem mem_pyProduct_replicate (l : List α) : ∀ (k : Nat) (v : List α),
    v ∈ pyProduct (List.replicate k l) ↔ v.length = k ∧ ∀ a ∈ v, a ∈ l
  | 0, v => by simp [pyProduct]; rintro rfl; simp
  | k + 1, v => by
    simp only [List.replicate_succ, pyProduct, List.mem_flatMap, List.mem_map]
    constructor
    · rintro ⟨a, ha, w, hw, rfl⟩
      obtain ⟨h1, h2⟩ := (mem_pyProduct_replicate l k w).1 hw
      refine ⟨by simp [h1], ?_⟩
      simpa using ⟨ha, h2⟩
    · rintro ⟨h1, h2⟩
      cases v with
      | nil => simp at h1
      | cons a w =>
        exact ⟨a, h2 a (by simp), w, (mem_pyProduct_replicate l k w).2 ⟨by simpa using h1, fun b hb => h2 b (by simp [hb])⟩, rfl⟩

theorem length_pyProduct_replicate (l : List α) : ∀ k : Nat, (pyProduct (List.replicate k l)).length = l.length ^ k
  | 0 => rfl
  | k + 1 => by
    simp [List.replicate_succ, pyProduct, List.length_flatMap, length_pyProduct_replicate l k, List.map_const', pow_succ,
      mul_comm]

theorem nodup_pyProduct_replicate {l : List α} (hl : l.Nodup) : ∀ k : Nat, (pyProduct (List.replicate k l)).Nodup
  | 0 => by simp [pyProduct]
  | k + 1 => by
    simp only [List.replicate_succ, pyProduct]
    rw [List.nodup_flatMap]
    refine ⟨fun a _ => ?_, ?_⟩
    · exact (nodup_pyProduct_replicate hl k).map (fun x y h => by simpa using h)
    · refine hl.imp ?_
      intro a b hab
      simp only [Function.onFun, List.disjoint_left, List.mem_map]
      rintro _ ⟨w, -, rfl⟩ ⟨w', -, h⟩
      simp only [List.cons.injEq] at h
      exact hab h.1.symm

end product

variable {K V : Type _} [Field K] [AddCommGroup V] [Module K V]

/-- The combination `Σ vᵢ • bᵢ`. -/
def comb (vals : List K) (basis : List V) : V := ((vals.zip basis).map fun vb => vb.1 • vb.2).sum

theorem foldl_comb : ∀ (l : List (K × V)) (s : V),
    l.foldl (fun elt vb => elt + vb.1 • vb.2) s = s + (l.map fun vb => vb.1 • vb.2).sum
  | [], s => by simp
  | a :: l, s => by simp [foldl_comb l, add_assoc]

theorem mem_span_comb : ∀ (basis : List V) (v : V),
    (∃ vals : List K, vals.length = basis.length ∧ comb vals basis = v) ↔ v ∈ Submodule.span K {b | b ∈ basis}
  | [], v => by
    have : {b : V | b ∈ ([] : List V)} = ∅ := by ext; simp
    rw [this, Submodule.span_empty, Submodule.mem_bot]
    constructor
    · rintro ⟨vals, h, rfl⟩; simp [comb]
    · rintro rfl; exact ⟨[], rfl, rfl⟩
  | b :: basis, v => by
    have : {x : V | x ∈ b :: basis} = insert b {x | x ∈ basis} := by ext; simp
    rw [this, Submodule.mem_span_insert]
    constructor
    · rintro ⟨vals, h, rfl⟩
      cases vals with
      | nil => simp at h
      | cons a vals => exact ⟨a, comb vals basis, (mem_span_comb basis _).1 ⟨vals, by simpa using h, rfl⟩, rfl⟩
    · rintro ⟨a, z, hz, rfl⟩
      obtain ⟨vals, h, rfl⟩ := (mem_span_comb basis z).2 hz
      exact ⟨a :: vals, by simp [h], rfl⟩

theorem comb_ofFn (basis : List V) (f : Fin basis.length → K) : comb (List.ofFn f) basis = ∑ i, f i • basis.get i := by
  have : (List.ofFn f).zip basis = List.ofFn fun i : Fin basis.length => (f i, basis.get i) := by
    apply List.ext_getElem <;> simp
  rw [comb, this, List.map_ofFn, List.sum_ofFn]
  rfl

theorem comb_injOn_iff (basis : List V) :
    (∀ v w : List K, v.length = basis.length → w.length = basis.length → comb v basis = comb w basis → v = w) ↔
      LinearIndependent K basis.get := by
  classical
  rw [linearIndependent_iff_injective_fintypeLinearCombination]
  constructor
  · intro h f g hfg
    have := h (List.ofFn f) (List.ofFn g) (by simp) (by simp) (by
      rw [comb_ofFn, comb_ofFn]; simpa [Fintype.linearCombination_apply] using hfg)
    exact List.ofFn_injective this
  · intro h v w hv hw hvw
    obtain ⟨f, rfl⟩ : ∃ f : Fin basis.length → K, v = List.ofFn f :=
      ⟨fun i => v[i.1]'(by omega), by apply List.ext_getElem <;> simp [hv]⟩
    obtain ⟨g, rfl⟩ : ∃ f : Fin basis.length → K, w = List.ofFn f :=
      ⟨fun i => w[i.1]'(by omega), by apply List.ext_getElem <;> simp [hw]⟩
    rw [comb_ofFn, comb_ofFn] at hvw
    congr 1
    apply h
    simpa [Fintype.linearCombination_apply] using hvw

theorem pyMap_const {α β : Type _} (x : β) : ∀ l : List α, pyMap (fun _ => .ok x) l = .ok (List.replicate l.length x)
  | [] => rfl
  | a :: l => by simp [pyMap, pyMap_const x l, bind, Except.bind, List.replicate_succ]

/-- Enumeration, for a field iterator that yields every element exactly once. -/
theorem affineIter_spec (els : List K) (hn : els.Nodup) (hall : ∀ a : K, a ∈ els) (basis : List V) (shift : V) :
    ∃ items, affineIter (.ok els) basis shift = .ok items ∧ items.length = els.length ^ basis.length ∧
      (∀ v, v ∈ items ↔ v - shift ∈ Submodule.span K {b | b ∈ basis}) ∧
      (items.Nodup ↔ LinearIndependent K basis.get) := by
  have e : affineIter (.ok els) basis shift = .ok ((pyProduct (List.replicate basis.length els)).map fun vals =>
      (vals.zip basis).foldl (fun elt vb => elt + vb.1 • vb.2) shift) := by
    simp only [affineIter, pyMap_const, bind, Except.bind]
  refine ⟨_, e, ?_, ?_, ?_⟩
  · simp [length_pyProduct_replicate]
  · intro v
    rw [← mem_span_comb, List.mem_map]
    constructor
    · rintro ⟨vals, h, rfl⟩
      refine ⟨vals, ((mem_pyProduct_replicate _ _ _).1 h).1, ?_⟩
      rw [foldl_comb, add_sub_cancel_left]; rfl
    · rintro ⟨vals, h1, h2⟩
      refine ⟨vals, (mem_pyProduct_replicate _ _ _).2 ⟨h1, fun a _ => hall a⟩, ?_⟩
      rw [foldl_comb]
      have : (List.map (fun vb : K × V => vb.1 • vb.2) (vals.zip basis)).sum = v - shift := h2
      rw [this]; abel
  · rw [← comb_injOn_iff, List.nodup_map_iff_inj_on (nodup_pyProduct_replicate hn _)]
    constructor
    · intro h v w hv hw hvw
      apply h v ((mem_pyProduct_replicate _ _ _).2 ⟨hv, fun a _ => hall a⟩) w
        ((mem_pyProduct_replicate _ _ _).2 ⟨hw, fun a _ => hall a⟩)
      rw [foldl_comb, foldl_comb]
      exact congrArg (shift + ·) hvw
    · intro h v hv w hw hvw
      apply h v w ((mem_pyProduct_replicate _ _ _).1 hv).1 ((mem_pyProduct_replicate _ _ _).1 hw).1
      rw [foldl_comb, foldl_comb] at hvw
      exact add_left_cancel hvw

theorem zp_elems (p : Nat) [hp : Fact p.Prime] :
    ((List.range p).map fun i : Nat => (Zp.ofInt (i : Int) : Zp p)).Nodup ∧
      ∀ a : Zp p, a ∈ (List.range p).map fun i : Nat => (Zp.ofInt (i : Int) : Zp p) := by
  have hv : ∀ i : Nat, i < p → (Zp.ofInt (i : Int) : Zp p).1 = i := by
    intro i hi
    show (i : Int).fmod p = i
    rw [Int.fmod_eq_emod_of_nonneg _ (by omega)]
    exact Int.emod_eq_of_lt (by omega) (by omega)
  constructor
  · rw [List.nodup_map_iff_inj_on List.nodup_range]
    intro a ha b hb h
    rw [List.mem_range] at ha hb
    have := congrArg Subtype.val h
    rw [hv a ha, hv b hb] at this
    omega
  · intro a
    rw [List.mem_map]
    have h1 := a.2.1
    have h2 := a.2.2
    refine ⟨a.1.toNat, by rw [List.mem_range]; omega, ?_⟩
    have : ((a.1.toNat : Nat) : Int) = a.1 := by omega
    rw [this]; exact Zp.ofInt_val a

theorem affineIter_fq (basis : List V) (shift : V) :
    affineIter (fqIter : Py (List K)) basis shift = if basis = [] then .ok [shift] else .error .attributeError := by
  cases basis <;> simp [affineIter, pyMap, fqIter, bind, Except.bind, pyProduct]

end Verif.ReedSolomon
