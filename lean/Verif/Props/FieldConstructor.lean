import Verif.Model.FieldConstructor
import Verif.Props.FiniteField
import Verif.Props.Memoize
/-!
# C115: constructing finite fields, over histories of calls
-/

namespace Verif.Props
open Poly FF

section
variable {p : Nat} [hp : Fact p.Prime] (factorint : Nat → List Nat) (draws : Nat → Nat → List (Zp p)) (inner fuel : Nat)
  (other : Call (Arg (Zp p)) String (Arg (Zp p)) → Py (FieldClass (Zp p)))

/-- The call `FiniteField(p, m, polynomialModulus=f)`. -/
def callMod (m : Nat) (f : List (Zp p)) : Call (Arg (Zp p)) String (Arg (Zp p)) := ⟨[.int p, .int m], [("polynomialModulus", .poly f)]⟩

/-- The result of a call after a history of calls of `FiniteField`. -/
def ffAfter (pre : List (Call (Arg (Zp p)) String (Arg (Zp p)))) (c : Call (Arg (Zp p)) String (Arg (Zp p))) : Py (FieldClass (Zp p)) :=
  (memoCall Arg.hashable (ffBody factorint p draws inner fuel other)
    (memoRun Arg.hashable (ffBody factorint p draws inner fuel other) ⟨[], []⟩ pre).2 c).1

theorem ffBody_callMod (k m : Nat) (f : List (Zp p)) :
    ffBody factorint p draws inner fuel other k (callMod m f) = finiteField factorint p m (some f) (draws k) inner fuel := by
  simp [ffBody, callMod, bindArgs, bindParam, paramNames, bind, Except.bind]

theorem memoCall_fresh {A K V B : Type _} [DecidableEq A] [DecidableEq K] (hashable : A → Bool) (f : Nat → Call A K V → Py B)
    (pre : List (Call A K V)) (c : Call A K V) (hh : c.args.all hashable = true) (hn : ∀ d ∈ pre, d.argTuple ≠ c.argTuple) :
    ∃ k, (memoCall hashable f (memoRun hashable f ⟨[], []⟩ pre).2 c).1 = f k c := by
  have hinv := memoRun_inv (hashable := hashable) pre ⟨[], []⟩ (Memo.inv_empty (f := f))
  have hlog : ∀ d ∈ (memoRun hashable f ⟨[], []⟩ pre).2.log, d ∈ pre := by
    have : ∀ (cs : List (Call A K V)) (st : Memo A K V B), ∀ d ∈ (memoRun hashable f st cs).2.log, d ∈ st.log ∨ d ∈ cs := by
      intro cs
      induction cs with
      | nil => intro st d hd; exact Or.inl hd
      | cons e cs ih =>
        intro st d hd
        rcases ih _ d hd with h | h
        · rcases memoCall_log_mem h with h | h
          · exact Or.inl h
          · exact Or.inr (by simp [h])
        · exact Or.inr (by simp [h])
    intro d hd
    simpa using this pre ⟨[], []⟩ d hd
  generalize (memoRun hashable f ⟨[], []⟩ pre).2 = st at hinv hlog
  have hl : st.cache.lookup c.argTuple = none := by
    cases h : st.cache.lookup c.argTuple with
    | none => rfl
    | some b =>
      obtain ⟨k, d, h1, h2, -⟩ := hinv.sound _ _ h
      exact absurd h2 (hn d (hlog d (List.mem_of_getElem? h1)))
  refine ⟨st.log.length, ?_⟩
  unfold memoCall
  rw [if_pos hh, hl]
  cases f st.log.length c <;> rfl

/-- **C115** (first use).  After any history without a call `FiniteField(p, m, polynomialModulus=...)` for this `p` and `m` (`m >= 2`),
`FiniteField(p, m, polynomialModulus=f)` with `f` of degree `m` returns the polynomials modulo `f`, a class with `p^m` elements, when `f`
is irreducible, and raises `ValueError` when it is not.  MISSING: other histories and degrees (the `_refuted` theorems). -/
theorem C115_first_partial (pre : List (Call (Arg (Zp p)) String (Arg (Zp p)))) (m : Nat) (hm : 2 ≤ m)
    (hpre : ∀ d ∈ pre, ∀ v, d ≠ ⟨[.int p, .int m], [("polynomialModulus", v)]⟩) (f : List (Zp p)) (hf : Canon f) (hd : degree f = m) :
    (Irreducible (toPoly f) → ffAfter factorint draws inner fuel other pre (callMod m f) = .ok (.ext f) ∧
      Nat.card {L : List (Zp p) // Canon L ∧ degree L < degree f} = p ^ m) ∧
    (¬ Irreducible (toPoly f) → ffAfter factorint draws inner fuel other pre (callMod m f) = .error .valueError) := by
  have hn : ∀ d ∈ pre, d.argTuple ≠ (callMod m f).argTuple := by
    intro d hdm h
    obtain ⟨a, kw⟩ := d
    simp only [Call.argTuple, callMod, List.map_cons, List.map_nil, List.cons_append, List.nil_append] at h
    have h1 : ∀ (a : List (Arg (Zp p))) (kw : List (String × Arg (Zp p))) (b : List (Arg (Zp p))) (n : String),
        (a.map MemoKey.pos ++ kw.map fun kv => MemoKey.name kv.1) = b.map MemoKey.pos ++ [MemoKey.name n] → a = b ∧ ∃ v, kw = [(n, v)] := by
      intro a
      induction a with
      | nil =>
        intro kw b n h
        cases b with
        | nil =>
          cases kw with
          | nil => simp at h
          | cons x kw =>
            obtain ⟨x, v⟩ := x
            simp at h
            exact ⟨rfl, v, by rw [h.1, h.2]⟩
        | cons y b => cases kw <;> simp at h
      | cons x a ih =>
        intro kw b n h
        cases b with
        | nil => simp at h
        | cons y b =>
          simp only [List.map_cons, List.cons_append, List.cons.injEq, MemoKey.pos.injEq] at h
          obtain ⟨e1, e2⟩ := ih kw b n h.2
          exact ⟨by rw [h.1, e1], e2⟩
    obtain ⟨e1, v, e2⟩ := h1 a kw [.int p, .int m] "polynomialModulus" h
    subst e1 e2
    exact hpre _ hdm v rfl
  obtain ⟨k, hk⟩ := memoCall_fresh Arg.hashable (ffBody factorint p draws inner fuel other) pre (callMod m f) (by rfl) hn
  unfold ffAfter
  rw [hk, ffBody_callMod]
  obtain ⟨b, b1, b2⟩ := C14_is_irreducible p f hf (by omega)
  have hnd : (toPoly f).natDegree = m := by rw [natDegree_toPoly hf]; unfold degree pabs at hd; omega
  refine ⟨fun hi => ⟨?_, ?_⟩, fun hi => ?_⟩
  · rw [b2.2 hi] at b1
    have : ¬ m = 1 := by omega
    simp [finiteField, b1, this, bind, Except.bind]
  · rw [(C12_extension_field p f hf hi).2.1, hnd]
  · cases b with
    | true => exact absurd (b2.1 rfl) hi
    | false => simp [finiteField, b1, bind, Except.bind]

theorem memoRun_append {A K V B : Type _} [DecidableEq A] [DecidableEq K] (hashable : A → Bool) (f : Nat → Call A K V → Py B) :
    ∀ (cs ds : List (Call A K V)) (st : Memo A K V B),
      (memoRun hashable f st (cs ++ ds)).2 = (memoRun hashable f (memoRun hashable f st cs).2 ds).2
  | [], _, _ => rfl
  | _ :: cs, ds, _ => memoRun_append hashable f cs ds _

/-- Two calls with the same key: the later one returns what the earlier one did. -/
theorem ffAfter_same_key (pre mid : List (Call (Arg (Zp p)) String (Arg (Zp p)))) (c d : Call (Arg (Zp p)) String (Arg (Zp p)))
    (hh : d.args.all Arg.hashable = true) (hk : c.argTuple = d.argTuple) (b : FieldClass (Zp p))
    (h : ffAfter factorint draws inner fuel other pre c = .ok b) :
    ffAfter factorint draws inner fuel other (pre ++ c :: mid) d = .ok b := by
  have h1 := (memoCall_ok h).2
  rw [hk] at h1
  have h2 := memoRun_lookup_mono (hashable := Arg.hashable) (f := ffBody factorint p draws inner fuel other) mid _ h1
  unfold ffAfter
  rw [memoRun_append, memoRun, memoCall_of_lookup hh h2]

/-- **C115** fails with a history: once `FiniteField(p, m, polynomialModulus=f)` has returned, every call
`FiniteField(p, m, polynomialModulus=g)`, at any later time and even with a reducible `g`, returns the class of `f`. -/
theorem C115_history_refuted (pre mid : List (Call (Arg (Zp p)) String (Arg (Zp p)))) (m : Nat) (f g : List (Zp p)) (b : FieldClass (Zp p))
    (h : ffAfter factorint draws inner fuel other pre (callMod m f) = .ok b) :
    ffAfter factorint draws inner fuel other (pre ++ callMod m f :: mid) (callMod m g) = .ok b :=
  ffAfter_same_key factorint draws inner fuel other pre mid _ _ (by rfl) (by rfl) b h

/-- **C115** fails for a modulus given by position: `FiniteField(p, m, f)` raises `TypeError` for every `f`, irreducible or not. -/
theorem C115_positional_refuted (pre : List (Call (Arg (Zp p)) String (Arg (Zp p)))) (m : Nat) (f : List (Zp p)) :
    ffAfter factorint draws inner fuel other pre ⟨[.int p, .int m, .poly f], []⟩ = .error .typeError := by
  simp [ffAfter, memoCall, Arg.hashable]

/-- **C115** fails for other degrees: an irreducible `f` of degree `d` other than `m` is accepted for every `m >= 2` (the class has `p^d`
elements, not `p^m`), so is every constant, and for `m = 1` any accepted modulus is ignored. -/
theorem C115_degree_refuted (m : Nat) (f : List (Zp p)) (hf : Canon f) :
    (Irreducible (toPoly f) → m ≠ 1 → degree f ≠ m → ffAfter factorint draws inner fuel other [] (callMod m f) = .ok (.ext f) ∧
      Nat.card {L : List (Zp p) // Canon L ∧ degree L < degree f} ≠ p ^ m) ∧
    (degree f ≤ 0 → m ≠ 1 → ffAfter factorint draws inner fuel other [] (callMod m f) = .ok (.ext f)) ∧
    (Irreducible (toPoly f) → ffAfter factorint draws inner fuel other [] (callMod 1 f) = .ok .prime) := by
  have hk : ∀ m, ∃ k, ffAfter factorint draws inner fuel other [] (callMod m f) = finiteField factorint p m (some f) (draws k) inner fuel := by
    intro m
    obtain ⟨k, hk⟩ := memoCall_fresh Arg.hashable (ffBody factorint p draws inner fuel other) [] (callMod m f) (by rfl) (by simp)
    exact ⟨k, by rw [← ffBody_callMod factorint draws inner fuel other]; exact hk⟩
  have hirr : Irreducible (toPoly f) → isIrreducible p f = .ok true := by
    intro hi
    have h0 := hi.natDegree_pos
    rw [natDegree_toPoly hf] at h0
    obtain ⟨b, b1, b2⟩ := C14_is_irreducible p f hf (by unfold degree pabs; omega)
    rw [b1, b2.2 hi]
  refine ⟨fun hi hm hd => ⟨?_, ?_⟩, fun hd hm => ?_, fun hi => ?_⟩
  · obtain ⟨k, hk⟩ := hk m
    simp [hk, finiteField, hirr hi, hm, bind, Except.bind]
  · rw [(C12_extension_field p f hf hi).2.1]
    intro h
    have := Nat.pow_right_injective hp.out.two_le h
    have h0 := hi.natDegree_pos
    rw [natDegree_toPoly hf] at this h0
    unfold degree pabs at hd
    omega
  · obtain ⟨k, hk⟩ := hk m
    simp [hk, finiteField, C14_constants p f hd, hm, bind, Except.bind]
  · obtain ⟨k, hk⟩ := hk 1
    simp [hk, finiteField, hirr hi, bind, Except.bind]

theorem argTuple_inj {A K V : Type _} {c d : Call A K V} (h : c.argTuple = d.argTuple) :
    c.args = d.args ∧ c.kwargs.map Prod.fst = d.kwargs.map Prod.fst := by
  obtain ⟨a, kw⟩ := c
  obtain ⟨b, kw'⟩ := d
  simp only [Call.argTuple] at h ⊢
  induction a generalizing b with
  | nil =>
    cases b with
    | nil =>
      refine ⟨rfl, ?_⟩
      have hinj : Function.Injective (MemoKey.name (A := A) (K := K)) := fun x y h => by simpa using h
      apply hinj.list_map
      simpa [List.map_map, Function.comp_def] using h
    | cons y b => cases kw <;> simp at h
  | cons x a ih =>
    cases b with
    | nil => cases kw' <;> simp at h
    | cons y b =>
      simp only [List.map_cons, List.cons_append, List.cons.injEq, MemoKey.pos.injEq] at h
      obtain ⟨e1, e2⟩ := ih b h.2
      exact ⟨by rw [h.1, e1], e2⟩

/-- **C115** (malformed calls). Too many positional arguments, a keyword that is no parameter or is given by position already, or a missing
degree: `TypeError`, after every history. -/
theorem C115_malformed (pre : List (Call (Arg (Zp p)) String (Arg (Zp p)))) (c : Call (Arg (Zp p)) String (Arg (Zp p)))
    (h : 3 < c.args.length ∨ (∃ kv ∈ c.kwargs, kv.1 ∉ ["p", "m", "polynomialModulus"].drop c.args.length) ∨
      (c.args.length ≤ 1 ∧ "m" ∉ c.kwargs.map Prod.fst)) :
    ffAfter factorint draws inner fuel other pre c = .error .typeError := by
  have hbad : ∀ d : Call (Arg (Zp p)) String (Arg (Zp p)), d.argTuple = c.argTuple → bindArgs d = .error .typeError := by
    intro d hd
    obtain ⟨e1, e2⟩ := argTuple_inj hd
    unfold bindArgs
    rw [e1]
    rcases h with h | ⟨kv, h1, h2⟩ | ⟨h1, h2⟩
    · rw [if_pos h]
    · split
      · rfl
      · have : kv.1 ∈ d.kwargs.map Prod.fst := by rw [e2]; exact List.mem_map_of_mem h1
        obtain ⟨kv', h3, h4⟩ := List.mem_map.1 this
        rw [if_pos]
        rw [List.any_eq_true]
        refine ⟨kv', h3, ?_⟩
        rw [h4]
        simpa [paramNames] using h2
    · split
      · rfl
      · split
        · rfl
        · have : bindParam d 1 = none := by
            unfold bindParam
            rw [e1, List.getElem?_eq_none (by omega)]
            simp only [paramNames, List.getD_cons_succ, List.getD_cons_zero]
            rw [List.lookup_eq_none_iff]
            intro kv hkv
            rw [bne_iff_ne]
            intro h3
            apply h2
            rw [← e2, h3]
            exact List.mem_map_of_mem hkv
          rw [this]
          split
          · next h3 h4 => cases h4
          · rfl
  have hbody : ∀ (k : Nat) (d : Call (Arg (Zp p)) String (Arg (Zp p))), d.argTuple = c.argTuple →
      ffBody factorint p draws inner fuel other k d = .error .typeError := by
    intro k d hd
    simp [ffBody, hbad d hd, bind, Except.bind]
  have hinv := memoRun_inv (hashable := Arg.hashable) (f := ffBody factorint p draws inner fuel other) pre ⟨[], []⟩ Memo.inv_empty
  unfold ffAfter memoCall
  split
  · cases hl : (memoRun Arg.hashable (ffBody factorint p draws inner fuel other) ⟨[], []⟩ pre).2.cache.lookup c.argTuple with
    | some b =>
      obtain ⟨k, d, -, h2, h3⟩ := hinv.sound _ _ hl
      rw [hbody k d h2] at h3
      cases h3
    | none => simp only [hbody _ c rfl]
  · rfl

/-- **C115** fails when the degree is a keyword: `FiniteField(p, m=...)` always returns the field of the first such call. -/
theorem C115_degree_keyword_refuted (pre mid : List (Call (Arg (Zp p)) String (Arg (Zp p)))) (m m' : Nat) (b : FieldClass (Zp p))
    (h : ffAfter factorint draws inner fuel other pre ⟨[.int p], [("m", .int m)]⟩ = .ok b) :
    ffAfter factorint draws inner fuel other (pre ++ ⟨[.int p], [("m", .int m)]⟩ :: mid) ⟨[.int p], [("m", .int m')]⟩ = .ok b :=
  ffAfter_same_key factorint draws inner fuel other pre mid _ _ (by rfl) (by rfl) b h

end

/-- `FiniteField(3)`, `FiniteField(3, 2, m=2)` and `FiniteField(3, 2, modulus=...)` are malformed. This meets the hypotheses of `C115_malformed`. -/
example : ∀ c ∈ ([⟨[.int 3], []⟩, ⟨[.int 3, .int 2], [("m", .int 2)]⟩, ⟨[.int 3, .int 2], [("modulus", .none)]⟩] :
    List (Call (Arg (Zp 3)) String (Arg (Zp 3)))),
    ffAfter (fun _ => [2]) (fun _ _ => ([0, 0] : List (Zp 3))) 0 0 (fun _ => .error .exception) [] c = .error .typeError := by
  decide +kernel

/-- In one process: `FiniteField(3, 2, polynomialModulus=x^2+1)`, then the same with `x^2+x+2` and with the reducible `x^2`; and
`FiniteField(3, 5, polynomialModulus=x^2+1)`. This meets the hypotheses of `C115_first_partial`, `C115_history_refuted`, `C115_degree_refuted`. -/
example :
    let after := ffAfter (fun _ => [2]) (fun _ _ => ([0, 0] : List (Zp 3))) 0 0 (fun _ => .error .exception)
    after [] (callMod 2 [1, 0, 1]) = .ok (.ext [1, 0, 1]) ∧ after [callMod 2 [1, 0, 1]] (callMod 2 [2, 1, 1]) = .ok (.ext [1, 0, 1]) ∧
    after [callMod 2 [1, 0, 1]] (callMod 2 [0, 0, 1]) = .ok (.ext [1, 0, 1]) ∧ after [] (callMod 2 [0, 0, 1]) = .error .valueError ∧
    after [callMod 2 [1, 0, 1]] (callMod 5 [1, 0, 1]) = .ok (.ext [1, 0, 1]) := by
  decide +kernel

end Verif.Props
