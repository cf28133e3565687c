import Verif.Model.Hankel

/-!
# Model of the quadrature routines (empymod/transform.py)

`qwe` (1049-1133), the integrands of `hankel_qwe` (345-419), `quad` (1136-1197) and the loop of
`hankel_quad` (489-503).
-/

namespace Verif.Transform

/-! ## QWE -/

/-- Tolerances, `np.finfo(np.double).tiny` and `.max`, and the outcome of the error test if the
extrapolated value is zero (a division by zero, which yields `nan` or `inf`; not modelled further). -/
structure QPar where
  rtol : ℝ
  atol : ℝ
  tiny : ℝ
  big : ℝ
  zero : ℂ → Bool

/-- One entry of the working arrays: row of `S`, row of `extrap`, `om`, `EM`. -/
structure QEntry where
  S : ℕ → ℂ
  ext : ℕ → ℂ
  om : Bool
  EM : ℂ

open Classical in
/-- `np.where(np.abs(ddff) < tiny, max, aux1 + 1/ddff)` (transform.py 1096-1098). -/
noncomputable def recip (p : QPar) (aux1 ddff : ℂ) : ℂ :=
  if ‖ddff‖ < p.tiny then (p.big : ℂ) else aux1 + 1 / ddff

/-- Body of the recursive loop (transform.py 1093-1098); the state is `aux2` and `S`. -/
noncomputable def shanksStep (p : QPar) (st : ℂ × (ℕ → ℂ)) (k : ℕ) : ℂ × (ℕ → ℂ) :=
  let aux1 := st.1
  let aux2 := st.2 (k - 1)
  let ddff := st.2 k - aux2
  (aux2, Function.update st.2 (k - 1) (recip p aux1 ddff))

/-- `for k in range(i, 0, -1)` (transform.py 1091-1098). -/
noncomputable def shanks (p : QPar) (i : ℕ) (S : ℕ → ℂ) : ℕ → ℂ :=
  (((List.range i).map fun q => i - q).foldl (shanksStep p) (0, S)).2

open Classical in
/-- `relErr >= rtol + abserr` (transform.py 1106-1111): the entry goes on. -/
noncomputable def goesOn (p : QPar) (new old : ℂ) : Bool :=
  if new = 0 then p.zero old else decide (p.rtol + p.atol / ‖new‖ ≤ ‖(new - old) / new‖)

/-- Body of the extrapolation loop for one entry (transform.py 1078-1114); `t i` is the field of
interval `i` times its weight. -/
noncomputable def qweStep (p : QPar) (t : ℕ → ℂ) (i : ℕ) (e : QEntry) : QEntry :=
  if e.om then
    let S := shanks p i (Function.update e.S i (e.S (i - 1) + t i))
    let ext := Function.update e.ext (i - 1) (S (i % 2) + t 0)
    if 1 < i then
      let om := goesOn p (ext (i - 1)) (ext (i - 2))
      ⟨S, ext, om, if om then ext (i - 1) else e.EM⟩
    else ⟨S, ext, e.om, e.EM⟩
  else e

/-- `for i in range(1, maxint)` with its `break` (transform.py 1076-1117): entries and last `i`;
`left` is the number of intervals left. -/
noncomputable def qweLoop (p : QPar) (n : ℕ) (t : ℕ → ℕ → ℂ) :
    (left i : ℕ) → (ℕ → QEntry) → (ℕ → QEntry) × ℕ
  | 0, i, e => (e, i - 1)
  | left + 1, i, e =>
    let e' := fun j => qweStep p (t j) i (e j)
    if (List.range n).all fun j => !(e' j).om then (e', i)
    else qweLoop p n t left (i + 1) e'

open Classical in
/-- `EM.real[EM.real == max] = 0` (transform.py 1129). -/
noncomputable def zeroBig (p : QPar) (z : ℂ) : ℂ := if z.re = p.big then ⟨0, z.im⟩ else z

/-- Entry before the loop (transform.py 1068-1072). -/
def qweInit : QEntry := ⟨fun _ => 0, fun _ => 0, true, 0⟩

/-- `qwe` (transform.py 1049-1133) for `n` entries: values, kernel count, convergence.  If `maxint` is
1 the loop variable is never assigned and the routine raises. -/
noncomputable def qwe (p : QPar) (maxint n : ℕ) (t : ℕ → ℕ → ℂ) : Option ((ℕ → ℂ) × ℕ × Bool) :=
  if maxint ≤ 1 then none
  else
    let r := qweLoop p n t (maxint - 1) 1 fun _ => qweInit
    some (fun j => zeroBig p (if (r.1 j).om then (r.1 j).ext (r.2 - 1) else (r.1 j).EM), 1 + r.2,
      decide (r.2 + 1 ≠ maxint))

/-- `getkernel` of `hankel_qwe` without spline (transform.py 389-413) for one offset: `nq` quadrature
points with Bessel functions times weights `B0`, `B1`. -/
noncomputable def qweKernel (nq : ℕ) (K : Option (ℕ → ℂ) × Option (ℕ → ℂ) × Option (ℕ → ℂ)) (ab : ℕ)
    (off ang : ℝ) (B0 B1 : ℕ → ℂ) : ℂ :=
  let dot := fun (f g : ℕ → ℂ) => ((List.range nq).map fun q => f q * g q).sum
  let g := 0
  let g := match K.2.1 with
    | none => g
    | some P1 =>
      let g := g + (ang : ℂ) * dot P1 B1
      if ab ∈ j2codes then g / (off : ℂ) else g
  let g := match K.2.2 with
    | none => g
    | some P0b => g + (ang : ℂ) * dot P0b B0
  match K.1 with
    | none => g
    | some P0 => g + dot P0 B0

/-- `sEM` of `hankel_qwe` with spline (transform.py 358-376) for one offset and interval. -/
noncomputable def qweSplined (nq : ℕ) (K : Option (ℕ → ℂ) × Option (ℕ → ℂ) × Option (ℕ → ℂ)) (ab : ℕ)
    (off ang : ℝ) (B0 B1 : ℕ → ℂ) : ℂ :=
  let dot := fun (f g : ℕ → ℂ) => ((List.range nq).map fun q => f q * g q).sum
  let s := 0
  let s := match K.2.1 with
    | none => s
    | some P1 =>
      let s := s + dot P1 B1
      if ab ∈ j2codes then s / (off : ℂ) else s
  let s := match K.2.2 with
    | none => s
    | some P0b => s + dot P0b B0
  let s := if K.2.1.isSome ∨ K.2.2.isSome then s * (ang : ℂ) else s
  match K.1 with
    | none => s
    | some P0 => s + dot P0 B0

/-! ## QUAD -/

/-- `scipy.integrate.quad` with `full_output`: value and length of the returned tuple (more than three
if there was a warning). -/
abbrev Integrator := (ℝ → ℝ) → ℝ × ℕ

/-- `(len(re) or len(im)) > 3` (transform.py 1170). -/
def quadWarn (re im : ℕ) : Bool := decide ((if re ≠ 0 then re else im) > 3)

/-- One of the three blocks of `quad` (transform.py 1165-1194): real and imaginary part of the
integrand are integrated separately. -/
noncomputable def quadBlock (Q : Integrator) (g : Option ((ℝ → ℝ) × (ℝ → ℝ))) (st : ℂ × Bool) : ℂ × Bool :=
  match g with
  | none => st
  | some (fr, fi) =>
    (st.1 + (((Q fr).1 : ℂ) + Complex.I * ((Q fi).1 : ℂ)),
      if quadWarn (Q fr).2 (Q fi).2 then false else st.2)

/-- Interpolated kernels (real and imaginary part as functions of wavenumber). -/
abbrev SplK := Option ((ℝ → ℝ) × (ℝ → ℝ))

/-- Apply the same real integrand to real and imaginary part. -/
def both (w : (ℝ → ℝ) → ℝ → ℝ) (s : SplK) : SplK := s.map fun p => (w p.1, w p.2)

/-- `quad` (transform.py 1136-1197). -/
noncomputable def quad (Q : Integrator) (J0 J1 : ℝ → ℝ) (s0 s1 s0b : SplK) (ab : ℕ) (off ang : ℝ) :
    ℂ × Bool :=
  let st := ((0 : ℂ), true)
  let st := quadBlock Q (both (fun s l => s l * J0 (off * l)) s0) st
  let st := quadBlock Q (both (fun s l =>
    (if ab ∈ j2codes then ang * s l / off else ang * s l) * J1 (off * l)) s1) st
  quadBlock Q (both (fun s l => ang * s l * J0 (off * l)) s0b) st

/-- Loop over offsets of `hankel_quad` (transform.py 489-503). -/
noncomputable def hankelQuad (Q : Integrator) (J0 J1 : ℝ → ℝ) (s0 s1 s0b : SplK) (ab : ℕ)
    (offs : List (ℝ × ℝ)) : List ℂ × ℕ × Bool :=
  let r := offs.map fun p => quad Q J0 J1 s0 s1 s0b ab p.1 p.2
  (r.map Prod.fst, 1, r.foldl (fun c x => c && x.2) true)

end Verif.Transform
