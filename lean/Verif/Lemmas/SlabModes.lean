import Mathlib.Tactic.FieldSimp
import Mathlib.Tactic.Ring
import Mathlib.Tactic.Linarith
import Mathlib.Tactic.LinearCombination
import Verif.Model.SlabModes

/-!
# Lemmas about the transfer matrices
-/
namespace Legume

open Complex

@[simp] theorem M2.mul_a (x y : M2) : (x * y).a = x.a * y.a + x.b * y.c := rfl
@[simp] theorem M2.mul_b (x y : M2) : (x * y).b = x.a * y.b + x.b * y.d := rfl
@[simp] theorem M2.mul_c (x y : M2) : (x * y).c = x.c * y.a + x.d * y.c := rfl
@[simp] theorem M2.mul_d (x y : M2) : (x * y).d = x.c * y.b + x.d * y.d := rfl

theorem M2.mul_assoc (x y z : M2) : x * y * z = x * (y * z) := by
  ext <;> simp <;> ring

/-- From amplitudes to `(A + B, w (A - B))`. -/
def pMat (w : ℂ) : M2 := ⟨1, 1, w, -w⟩

/-- Its inverse. -/
noncomputable def pInv (w : ℂ) : M2 := ⟨1 / 2, 1 / (2 * w), 1 / 2, -(1 / (2 * w))⟩

/-- Characteristic matrix of a layer in the continuous variables. -/
noncomputable def cMat (w x : ℂ) (d : ℝ) : M2 :=
  ⟨Complex.cos (x * d), Complex.I * Complex.sin (x * d) / w, Complex.I * w * Complex.sin (x * d),
    Complex.cos (x * d)⟩

/-- The identity. -/
def M2.one : M2 := ⟨1, 0, 0, 1⟩

@[simp] theorem M2.one_mul (x : M2) : M2.one * x = x := by ext <;> simp [M2.one]
@[simp] theorem M2.mul_one (x : M2) : x * M2.one = x := by ext <;> simp [M2.one]

theorem pMat_pInv (w : ℂ) (hw : w ≠ 0) : pMat w * pInv w = M2.one := by
  ext <;> simp [pMat, pInv, M2.one] <;> field_simp <;> norm_num

theorem sMat_eq (w1 w2 : ℂ) (h2 : w2 ≠ 0) : sMat w1 w2 = pInv w2 * pMat w1 := by
  ext <;> simp [sMat, pMat, pInv] <;> field_simp <;> ring

theorem exp_I_mul (z : ℂ) : Complex.exp (Complex.I * z) = Complex.cos z + Complex.I * Complex.sin z := by
  rw [mul_comm, Complex.exp_mul_I]; ring

theorem exp_neg_I_mul (z : ℂ) : Complex.exp (-Complex.I * z) = Complex.cos z - Complex.I * Complex.sin z := by
  have := exp_I_mul (-z)
  rw [Complex.cos_neg, Complex.sin_neg] at this
  rw [show -Complex.I * z = Complex.I * -z by ring, this]; ring

theorem tMat_sq (x : ℂ) (d : ℝ) : tMat x d * tMat x d =
    ⟨Complex.exp (Complex.I * (x * d)), 0, 0, Complex.exp (-Complex.I * (x * d))⟩ := by
  ext <;> simp only [M2.mul_a, M2.mul_b, M2.mul_c, M2.mul_d, tMat]
  · rw [← Complex.exp_add]; simp; congr 1; ring
  · simp
  · simp
  · rw [← Complex.exp_add]; simp; congr 1; ring

theorem tMat_sq_eq (w x : ℂ) (d : ℝ) (hw : w ≠ 0) :
    tMat x d * tMat x d = pInv w * (cMat w x d * pMat w) := by
  rw [tMat_sq, exp_I_mul, exp_neg_I_mul]
  ext <;> simp [pInv, cMat, pMat] <;> field_simp <;> ring

/-- Product of the characteristic matrices of a list of layers, the first layer acting first. -/
noncomputable def cProd (pol : Pol) (omega g : ℝ) : List (ℝ × ℝ) → M2
  | [] => M2.one
  | l :: ls => cProd pol omega g ls * cMat (wgt pol omega g l.1) (chi omega g l.1) l.2

/-- A stack without vanishing weights. -/
def nonDeg (pol : Pol) (omega g : ℝ) (eps : List ℝ) : Prop := ∀ e ∈ eps, wgt pol omega g e ≠ 0

theorem M2.mul_left_cancel_help (A B C D : M2) : A * (B * (C * D)) = A * (B * C) * D := by
  rw [M2.mul_assoc, M2.mul_assoc]

theorem foldl_transfer (pol : Pol) (omega g : ℝ) (ls : List (ℝ × ℝ)) (l : ℝ × ℝ) (eN : ℝ) (D : M2)
    (hw : nonDeg pol omega g (((l :: ls).map Prod.fst) ++ [eN])) :
    ((sMats pol omega g ((l :: ls).map Prod.fst ++ [eN])).zip
      (List.zipWith (fun e d => tMat (chi omega g e) d) ((l :: ls).map Prod.fst) ((l :: ls).map Prod.snd))).foldl
      (fun D st => st.1 * (st.2 * (st.2 * D))) D =
    pInv (wgt pol omega g eN) * (cProd pol omega g (l :: ls) * (pMat (wgt pol omega g l.1) * D)) := by
  induction ls generalizing l D with
  | nil =>
    have h1 : wgt pol omega g l.1 ≠ 0 := hw _ (by simp)
    have h2 : wgt pol omega g eN ≠ 0 := hw _ (by simp)
    simp only [sMats, List.map_cons, List.map_nil, List.cons_append, List.nil_append, List.tail_cons,
      List.zipWith_cons_cons, List.zipWith_nil_right, List.zip_cons_cons, List.zip_nil_left,
      List.foldl_cons, List.foldl_nil, cProd, M2.one_mul]
    rw [← M2.mul_assoc (tMat _ _), tMat_sq_eq _ _ _ h1, sMat_eq _ _ h2]
    simp only [M2.mul_assoc]
    rw [← M2.mul_assoc (pMat (wgt pol omega g l.1)) (pInv _), pMat_pInv _ h1, M2.one_mul]
  | cons l' ls ih =>
    have h1 : wgt pol omega g l.1 ≠ 0 := hw _ (by simp)
    have h2 : wgt pol omega g l'.1 ≠ 0 := hw _ (by simp)
    have hw' : nonDeg pol omega g (((l' :: ls).map Prod.fst) ++ [eN]) := by
      intro e he; exact hw e (by simp only [List.map_cons, List.cons_append, List.mem_cons] at he ⊢; tauto)
    have := ih l' (sMat (wgt pol omega g l.1) (wgt pol omega g l'.1) *
      (tMat (chi omega g l.1) l.2 * (tMat (chi omega g l.1) l.2 * D))) hw'
    simp only [sMats, List.map_cons, List.cons_append, List.tail_cons, List.zipWith_cons_cons,
      List.zip_cons_cons, List.foldl_cons] at this ⊢
    rw [this, ← M2.mul_assoc (tMat _ _), tMat_sq_eq _ _ _ h1, sMat_eq _ _ h2]
    simp only [M2.mul_assoc]
    rw [← M2.mul_assoc (pMat (wgt pol omega g l.1)) (pInv _), pMat_pInv _ h1, M2.one_mul,
      ← M2.mul_assoc (pMat (wgt pol omega g l'.1)) (pInv _), pMat_pInv _ h2, M2.one_mul]
    rw [show cProd pol omega g (l :: l' :: ls) = cProd pol omega g (l' :: ls) *
      cMat (wgt pol omega g l.1) (chi omega g l.1) l.2 from rfl]
    simp only [M2.mul_assoc]

/-- The transfer matrix of the whole stack. -/
theorem d22General_eq (pol : Pol) (omega g e0 eN : ℝ) (ls : List (ℝ × ℝ))
    (hw : nonDeg pol omega g (e0 :: ls.map Prod.fst ++ [eN])) :
    d22General pol omega g (e0 :: ls.map Prod.fst ++ [eN]) (ls.map Prod.snd) =
      (pInv (wgt pol omega g eN) * (cProd pol omega g ls * pMat (wgt pol omega g e0))).d := by
  cases ls with
  | nil =>
    have h2 : wgt pol omega g eN ≠ 0 := hw _ (by simp)
    simp [d22General, sMats, tMats, cProd, sMat_eq _ _ h2]
  | cons l ls =>
    have h1 : wgt pol omega g l.1 ≠ 0 := hw _ (by simp)
    have hw' : nonDeg pol omega g (((l :: ls).map Prod.fst) ++ [eN]) := by
      intro e he; exact hw e (by simp only [List.map_cons, List.cons_append, List.mem_cons] at he ⊢; tauto)
    have key := foldl_transfer pol omega g ls l eN
      (sMat (wgt pol omega g e0) (wgt pol omega g l.1)) hw'
    have ht : tMats omega g (e0 :: (l :: ls).map Prod.fst ++ [eN]) ((l :: ls).map Prod.snd) =
        List.zipWith (fun e d => tMat (chi omega g e) d) ((l :: ls).map Prod.fst) ((l :: ls).map Prod.snd) := by
      unfold tMats
      rw [List.cons_append, List.tail_cons, List.dropLast_concat]
    have hs : sMats pol omega g (e0 :: (l :: ls).map Prod.fst ++ [eN]) =
        sMat (wgt pol omega g e0) (wgt pol omega g l.1) ::
          sMats pol omega g ((l :: ls).map Prod.fst ++ [eN]) := by
      simp [sMats]
    unfold d22General
    rw [hs, ht]
    simp only
    rw [key, sMat_eq _ _ h1, ← M2.mul_assoc (pMat (wgt pol omega g l.1)) (pInv _), pMat_pInv _ h1,
      M2.one_mul]

theorem cMat_add (w x : ℂ) (d1 d2 : ℝ) (hw : w ≠ 0) :
    cMat w x d2 * cMat w x d1 = cMat w x (d1 + d2) := by
  have e : x * ((d1 + d2 : ℝ) : ℂ) = x * d1 + x * d2 := by push_cast; ring
  ext <;> simp only [M2.mul_a, M2.mul_b, M2.mul_c, M2.mul_d, cMat, e, Complex.cos_add, Complex.sin_add]
  · field_simp
    linear_combination (Complex.sin (x * d2) * Complex.sin (x * d1)) * Complex.I_sq
  · field_simp
  · ring
  · field_simp
    linear_combination (Complex.sin (x * d2) * Complex.sin (x * d1)) * Complex.I_sq

theorem cProd_append (pol : Pol) (omega g : ℝ) (l1 l2 : List (ℝ × ℝ)) :
    cProd pol omega g (l1 ++ l2) = cProd pol omega g l2 * cProd pol omega g l1 := by
  induction l1 with
  | nil => simp [cProd]
  | cons l l1 ih => rw [List.cons_append, cProd, cProd, ih, M2.mul_assoc]

/-- Mirror image of a characteristic matrix: diagonal entries exchanged. -/
def M2.flip (x : M2) : M2 := ⟨x.d, x.b, x.c, x.a⟩

theorem M2.flip_mul (x y : M2) : (x * y).flip = y.flip * x.flip := by
  ext <;> simp [M2.flip] <;> ring

theorem cMat_flip (w x : ℂ) (d : ℝ) : (cMat w x d).flip = cMat w x d := rfl

theorem cProd_reverse (pol : Pol) (omega g : ℝ) (ls : List (ℝ × ℝ)) :
    cProd pol omega g ls.reverse = (cProd pol omega g ls).flip := by
  induction ls with
  | nil => rfl
  | cons l ls ih =>
    rw [List.reverse_cons, cProd_append, ih,
      show cProd pol omega g (l :: ls) = cProd pol omega g ls *
        cMat (wgt pol omega g l.1) (chi omega g l.1) l.2 from rfl, M2.flip_mul, cMat_flip]
    simp [cProd]

end Legume
