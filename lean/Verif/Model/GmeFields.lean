import Verif.Model.MatrixElements

/-!
# Fields of a guided-mode expansion: `GuidedModeExp.ft_field_xy` (gme.py 1914-2124)

`z` is measured from the interface of a cladding (`claddings[0].z_max`, `claddings[1].z_min`) or from
the middle of a layer (`z_cent`).
-/
namespace Legume

/-- Magnetic field of one basis state (gme.py 1977-2027). -/
noncomputable def hMode (pos : LPos) (s : GmeState) (m : ModeL) (z : ℝ) : Fin 3 → ℂ :=
  let zp := Complex.exp (Complex.I * m.x * z)
  let zn := Complex.exp (-Complex.I * m.x * z)
  match s.pol, pos with
  | .te, .lower =>
    let H := m.B * zn
    ![H * Complex.I * m.x * s.p.1, H * Complex.I * m.x * s.p.2, H * Complex.I * s.gk]
  | .te, .upper =>
    let H := m.A * zp
    ![-H * Complex.I * m.x * s.p.1, -H * Complex.I * m.x * s.p.2, H * Complex.I * s.gk]
  | .te, .inner _ =>
    let Hxy := -Complex.I * m.A * zp + Complex.I * m.B * zn
    ![Hxy * m.x * s.p.1, Hxy * m.x * s.p.2, Complex.I * (m.A * zp + m.B * zn) * s.gk]
  | .tm, .lower =>
    let H := m.B * zn
    ![H * s.q.1, H * s.q.2, 0]
  | .tm, .upper =>
    let H := m.A * zp
    ![H * s.q.1, H * s.q.2, 0]
  | .tm, .inner _ =>
    let Hxy := m.A * zp + m.B * zn
    ![Hxy * s.q.1, Hxy * s.q.2, 0]

/-- Displacement of one basis state (gme.py 2045-2105), `omega` being the frequency of the mode of the
crystal. -/
noncomputable def dMode (omega : ℝ) (pos : LPos) (eps : ℝ) (s : GmeState) (m : ModeL) (z : ℝ) : Fin 3 → ℂ :=
  let zp := Complex.exp (Complex.I * m.x * z)
  let zn := Complex.exp (-Complex.I * m.x * z)
  match s.pol, pos with
  | .te, .lower =>
    let D := Complex.I * m.B * (s.om : ℂ) ^ 2 / omega * eps * zn
    ![D * s.q.1, D * s.q.2, 0]
  | .te, .upper =>
    let D := Complex.I * m.A * (s.om : ℂ) ^ 2 / omega * eps * zp
    ![D * s.q.1, D * s.q.2, 0]
  | .te, .inner _ =>
    let Dxy := Complex.I * (s.om : ℂ) ^ 2 / omega * eps * (m.A * zp + m.B * zn)
    ![Dxy * s.q.1, Dxy * s.q.2, 0]
  | .tm, .lower =>
    let D := Complex.I / omega * m.B * zn
    ![D * Complex.I * m.x * s.p.1, D * Complex.I * m.x * s.p.2, D * Complex.I * s.gk]
  | .tm, .upper =>
    let D := Complex.I / omega * m.A * zp
    ![-D * Complex.I * m.x * s.p.1, -D * Complex.I * m.x * s.p.2, D * Complex.I * s.gk]
  | .tm, .inner _ =>
    let Dxy := 1 / (omega : ℂ) * m.x * (m.A * zp - m.B * zn)
    ![Dxy * s.p.1, Dxy * s.p.2, -1 / (omega : ℂ) * s.gk * (m.A * zp + m.B * zn)]

/-- One entry of the basis as used by `ft_field_xy`: the number of its plane wave (`indmode`), its
entry of the eigenvector, the state and its amplitudes in the layer that contains `z`. -/
structure FieldState where
  ind : ℕ
  c : ℂ
  s : GmeState
  m : ModeL

/-- Component `G` of the arrays `Hx_ft`, `Hy_ft`, `Hz_ft`: `bd.extend` puts the contribution of every
state at the position of its plane wave and contributions of different guided modes are added
(gme.py 2029-2038). -/
noncomputable def hFt (area : ℝ) (pos : LPos) (basis : List FieldState) (G : ℕ) (z : ℝ) (c : Fin 3) : ℂ :=
  (basis.map fun b => if b.ind = G then b.c * hMode pos b.s b.m z c / (√area : ℝ) else 0).sum

/-- The same for `Dx_ft`, `Dy_ft`, `Dz_ft` (gme.py 2107-2116). -/
noncomputable def dFt (area omega : ℝ) (pos : LPos) (eps : ℝ) (basis : List FieldState) (G : ℕ) (z : ℝ)
    (c : Fin 3) : ℂ :=
  (basis.map fun b => if b.ind = G then b.c * dMode omega pos eps b.s b.m z c / (√area : ℝ) else 0).sum

/-- Component `G` of the electric field: `eps_inv_mat[lind] @ D` (gme.py 2118-2124), for `n` plane
waves. -/
noncomputable def eFt (n : ℕ) (einv : ℕ → ℕ → ℂ) (D : ℕ → Fin 3 → ℂ) (G : ℕ) (c : Fin 3) : ℂ :=
  ∑ G' ∈ Finset.range n, einv G G' * D G' c

end Legume
