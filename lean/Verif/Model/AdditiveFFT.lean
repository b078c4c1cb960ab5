import Verif.Model.FFT
/-!
# Model of starks/fft.py: `Additive_FFT`

The code runs on elements of a binary field `FiniteField(2, m, f)`.  `E` is that field; `bits a` are the coefficients of
`a.poly` as the code reads them (`str(c)[0] == '1'`, `int(c)`), and `ofBits L` is `self.field(polysOver(L))`.  The field
operations are those of a Mathlib field (C12 shows that `FiniteField`'s are).
-/

namespace Verif.AdditiveFFT
open Poly FFT PolyUtils

/-- fft.py:9-19: the loop of `int_to_bin_string`. -/
def binLoop : Nat → Nat → List Bool → List Bool
  | 0, _, s => s
  | fuel + 1, i, s => if i = 0 then s else binLoop fuel (i / 2) ((i % 2 == 1) :: s)

/-- fft.py:9-19 `int_to_bin_string`: the digits, most significant first. -/
def intToBinString (i : Nat) : List Bool := if i = 0 then [false] else binLoop (i + 1) i []

variable {E : Type} [Field E] [DecidableEq E] (bits : E → List Bool) (ofBits : List Bool → E)

/-- fft.py:48-51: the last `x` in `range(n)` with `2^(x+1) < n ≤ 2^(x+2)`; `k` stays unbound if there is none. -/
def taylorK (n : Nat) : Option Nat := ((List.range n).filter fun x => decide (2 ^ (x + 1) < n ∧ n ≤ 2 ^ (x + 2))).getLast?

/-- fft.py:53-74: `cnt` coefficients from position `off`, 0 beyond the degree. -/
def block (P : E) (off cnt : Nat) : E := ofBits ((List.range cnt).map fun i => (bits P).getD (off + i) false)

/-- fft.py:42-95 `Taylor_Expansion` for an int `n`.  The recursive calls pass the float `n/2`: they return their argument when
`n/2 ≤ 2` and otherwise raise `TypeError` at `range(n)`. -/
def taylor (P : E) (n : Nat) : Py (E ⊕ E × E) :=
  if n ≤ 2 then .ok (.inl P)
  else match taylorK n with
    | none => .error .unboundLocal
    | some k =>
      let f0 := block bits ofBits P 0 (2 ^ (k + 1))
      let f1 := block bits ofBits P (2 ^ (k + 1)) (2 ^ k)
      let f2 := block bits ofBits P (2 ^ (k + 1) + 2 ^ k) (2 ^ k)
      let h := f1 + f2
      let fk := ofBits (List.replicate (2 ^ k) false ++ [true])
      let g0 := f0 + fk * h
      let g1 := h + fk * f2
      if n ≤ 4 then .ok (.inr (g0, g1)) else .error .typeError

/-- fft.py:102-104, 119-121: `for i in range(degree+1): if coefficients[i] == 1: acc = acc + x**i`, from index `i`. -/
def sumPowers (x : E) : List Bool → Nat → E → E
  | [], _, acc => acc
  | b :: bs, i, acc => sumPowers x bs (i + 1) (if b then acc + x ^ i else acc)

/-- fft.py:143-145, 201-203, 219-221: `for j in range(len(binary)): if binary[j] == '1': temp = temp + basis[j]`, from index `j`. -/
def spanElt (basis : List E) : List Bool → Nat → E → Py E
  | [], _, temp => .ok temp
  | b :: bs, j, temp => do
    let t ← (if b then do let g ← pyIdx basis j; .ok (temp + g) else .ok temp)
    spanElt basis bs (j + 1) t

/-- fft.py:98-167 `adfft`.  The pair returned for `m = 1` is a list of length 2.  Simplified: an empty `beta` always raises
`IndexError` (the code raises it only if `Polys` is not 0). -/
def adfft : Nat → E → List E → Py (List E)
  | 0, _, beta => do
    let _ ← pyIdx beta 0
    .error .typeError
  | 1, P, beta => do
    let b0 ← pyIdx beta 0
    let zero := ofBits [false]
    .ok [sumPowers b0 (bits P) 0 zero, zero]
  | m + 2, P, beta => do
    let _ ← pyIdx beta 0
    let zero := ofBits [false]
    let bm ← pyIdx beta (m + 1)
    let x := ofBits [false, true] * bm
    let g := sumPowers x (bits P) 0 zero
    let t ← taylor bits ofBits g (2 ^ (m + 2))
    match t with
    | .inl _ => .error .typeError
    | .inr (g0, g1) => do
      let bi ← pyDiv 1 bm
      let gamma ← pyMap (fun i => do let b ← pyIdx beta i; .ok (b * bi)) (List.range (m + 1))
      let delta := gamma.map fun c => c ^ 2 - c
      let G ← pyMap (fun i => spanElt gamma (intToBinString i) 0 zero) (List.range (2 ^ (m + 1)))
      let u ← adfft (m + 1) g0 delta
      let v ← adfft (m + 1) g1 delta
      let w ← pyMap (fun i => do
        let a ← pyIdx u i
        let c ← pyIdx G i
        let d ← pyIdx v i
        .ok (a + c * d, a + c * d + d)) (List.range (2 ^ (m + 1)))
      .ok (w.map Prod.fst ++ w.map Prod.snd)

/-- fft.py:211-213: `v[i] = y[i + half] - y[i]`, `u[i] = y[i] - G[i] * v[i]`; `n` entries remain, starting with `i`. -/
def uvLoop (y G : List E) (half : Nat) : Nat → Nat → Py (List E × List E)
  | 0, _ => .ok ([], [])
  | n + 1, i => do
    let a ← pyIdx y (i + half)
    let b ← pyIdx y i
    let g ← pyIdx G i
    let rest ← uvLoop y G half n (i + 1)
    .ok ((b - g * (a - b)) :: rest.1, (a - b) :: rest.2)

/-- fft.py:242-252: the final loop; `n` rounds remain, starting with `i`. -/
def assemble (c0 c1 : List Bool) (mult right : List E) : Nat → Nat → E → Py E
  | 0, _, g => .ok g
  | n + 1, i, g => do
    let k := (if c0.getD i false then 1 else 0) + 2 ^ (if c1.getD i false then 1 else 0)
    let a ← pyIdx mult k
    let r ← pyIdx right i
    assemble c0 c1 mult right n (i + 1) (g + a * r)

/-- fft.py:232-240: `g_right`: the powers of `t`, `n` more after `last`. -/
def rightPowers (t : E) : Nat → E → List E
  | 0, last => [last]
  | n + 1, last => last :: rightPowers t n (last * t)

/-- fft.py:170-254 `adfft_inverse`.  `polysOver` is assigned after the `m == 1` branch, hence local and unbound there. -/
def adfftInv : Nat → List E → List E → Py E
  | 0, _, _ => .error .indexError
  | 1, x, y => do
    let x0 ← pyIdx x 0
    let x1 ← pyIdx x 1
    if x0 = x1 then .ok x0
    else do
      let _ ← pyIdx y 1
      let _ ← pyIdx y 0
      .error .unboundLocal
  | m + 2, x, y => do
    let beta ← pyMap (fun i => pyIdx x (2 ^ i)) (List.range (m + 2))
    let bl ← pyIdx beta (m + 1)
    let bi ← pyDiv 1 bl
    let gamma := (beta.take (m + 1)).map fun b => b * bi
    let delta := gamma.map fun c => c * c - c
    let zero := ofBits [false]
    let G ← pyMap (fun i => spanElt gamma (intToBinString i) 0 zero) (List.range (2 ^ (m + 1)))
    let uv ← uvLoop y G (2 ^ (m + 1)) (2 ^ (m + 1)) 0
    let x1 ← pyMap (fun i => spanElt delta (intToBinString (i + 1)) 0 zero) (List.range (2 ^ (m + 1)))
    let g0 ← adfftInv (m + 1) x1 uv.1
    let g1 ← adfftInv (m + 1) x1 uv.2
    let s := ofBits [false, true] * bi
    let right := rightPowers (s * s - s) (2 ^ (m + 1)) (ofBits [true])
    assemble (bits g0) (bits g1) [zero, s, ofBits [true], ofBits [true] + s] right (2 ^ (m + 1)) 0 zero

end Verif.AdditiveFFT
