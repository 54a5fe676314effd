import Verif.Model.Mode

/-!
# Model of the spin element

Sources: `/repo/CPPQEDelements/frees/Spin.cc`, `Spin.h`.
-/

namespace CppQED.SpinEl
open CppQED.Elem CppQED.Tridiag CppQED.ModeEl

/-- `spin::Pars` (Spin.h:54-62). -/
structure Pars where
  twoS : ℕ
  dim : ℕ
  theta : ℝ
  phi : ℝ
  omega : ℝ
  gamma : ℝ

/-- `decideDimension` (Spin.cc:29-32). -/
def decideDimension (twoS dim : ℕ) : ℕ := if dim ≠ 0 ∧ dim < twoS + 1 then dim else twoS + 1

/-- The dimension of the element (Spin.cc:89-90). -/
def Pars.dimension (p : Pars) : ℕ := decideDimension p.twoS p.dim

/-- `get_z` (Spin.h:102). -/
def Pars.z (p : Pars) : ℂ := ⟨p.gamma, p.omega⟩

/-- `splus(dim,twoS,z,false)` (Spin.cc:43-52). -/
noncomputable def splus (dim twoS : ℕ) : Outcome Tri :=
  unary (Diag.empty 1) 1 (diag1 (dim - 1) fun i => (Real.sqrt (((twoS : ℝ) - i) * (i + 1)) : ℂ)) (Diag.empty 1) false

/-- `sz(dim,twoS)` (Spin.cc:61-65). -/
noncomputable def sz (dim twoS : ℕ) : Outcome Tri := diagonalOperator dim fun i => (i : ℂ) - twoS / 2

/-- `sx(dim,twoS,z,false)` (Spin.h:32). -/
noncomputable def sx (dim twoS : ℕ) : Outcome Tri :=
  (splus dim twoS).bind fun sp => (add sp (hermitianConjugate sp)).bind fun s => .ok (scale (1 / 2) s)

/-- `sy(dim,twoS,z,false)` (Spin.h:33). -/
noncomputable def sy (dim twoS : ℕ) : Outcome Tri :=
  (splus dim twoS).bind fun sp => (add sp (neg (hermitianConjugate sp))).bind fun s => .ok (scale (1 / (2 * Complex.I)) s)

/-- `sn(dim,twoS,z,false,theta,phi)` (Spin.h:46-49). -/
noncomputable def sn (dim twoS : ℕ) (theta phi : ℝ) : Outcome Tri :=
  (sx dim twoS).bind fun x => (sy dim twoS).bind fun y => (sz dim twoS).bind fun z =>
    (add (scale (Real.cos phi) x) (scale (Real.sin phi) y)).bind fun xy => add (scale (Real.sin theta) xy) (scale (Real.cos theta) z)

/-- `Liouvillean::doActWithJ` (Spin.cc:137-144). -/
noncomputable def jump (twoS : ℕ) (gamma : ℝ) (d : ℕ) (psi : Vec) : Vec :=
  let fact := Real.sqrt (2 * gamma)
  ((List.range (d - 1)).foldl (fun psi n => psi.set n (fact * Real.sqrt (((n : ℝ) + 1) * (twoS - n)) * psi (n + 1))) psi).set (d - 1) 0

/-- `Liouvillean::rate` (Spin.cc:147-153). -/
def rate (twoS : ℕ) (gamma : ℝ) (m : LDO) : ℝ :=
  (List.range' 1 (m.dim - 1)).foldl (fun res (n : ℕ) => res + 2 * gamma * n * ((twoS : ℝ) - n + 1) * m.diag n) 0

/-- `spin::Liouvillean` (Spin.h:65-78): no superoperator. -/
noncomputable def liouvillean (p : Pars) : Liouvillean :=
  elementLiouvillean ["S-"] [⟨jump p.twoS p.gamma p.dimension, rate p.twoS p.gamma, none⟩]

open Classical in
/-- `Spin` (Spin.h:117-133), `updateU` (Spin.cc:129-134): `exp(-dtDid*i*get_z())`; with `LossySpin` (Spin.h:152-160) the Liouvillean in addition. -/
noncomputable def spin (p : Pars) (li : Option Liouvillean) : Outcome Element :=
  .ok ⟨p.dimension, none, some fun t i => Complex.exp (-t * i * p.z), decide (p.gamma = 0), li⟩

/-- `SpinSch` (Spin.h:136-149); with `LossySpinSch` (163-171) the Liouvillean in addition. -/
noncomputable def spinSch (p : Pars) (li : Option Liouvillean) : Outcome Element :=
  (sn p.dimension p.twoS p.theta p.phi).bind fun h =>
    .ok ⟨p.dimension, some (TriHam.addContribution ⟨false, [scale (-p.z) h]⟩), none, true, li⟩

/-- `SpinBase::average_v` (Spin.cc:98-120). -/
noncomputable def average (twoS : ℕ) (m : LDO) : Averages :=
  let s : ℝ := twoS / 2
  ((List.range m.dim).foldl (fun (a : Averages) (n : ℕ) =>
    let diag := m.diag n
    let a := a.add 0 ((n - s) * diag)
    let a := a.add 1 ((n - s) ^ 2 * diag)
    if n < m.dim - 1 then
      let temp := Real.sqrt (((twoS : ℝ) - n) * (n + 1)) * m.index n (n + 1)
      (a.add 2 temp.re).add 3 temp.im
    else a) fun _ => 0).set 4 (m.diag (m.dim - 1))

/-- `SpinBase::process_v` (Spin.cc:123-126). -/
def process (a : Averages) : Averages := a.set 1 (a 1 - a 0 ^ 2)

end CppQED.SpinEl
