import Verif.Props.Unitary
/-!
# C09: the named gates

The matrices are those of common.h 106-118 and dd.cpp 1902-2080 with real numbers for `double`
(`Verif.Core.NamedGates`); the specification is Mathlib's matrices over `ℂ`.  `rot P θ = cos(θ/2) - i sin(θ/2) P`.
-/

set_option linter.unusedSectionVars false
set_option linter.unusedVariables false
set_option linter.unusedSimpArgs false

namespace QDD.Props
open Spec Api Finset Gate
open scoped Kronecker

abbrev U2 : Set (Matrix (Fin 2) (Fin 2) ℂ) := (Matrix.unitaryGroup (Fin 2) ℂ : Set _)
abbrev U4 : Set (Matrix (Fin 2 × Fin 2) (Fin 2 × Fin 2) ℂ) := (Matrix.unitaryGroup (Fin 2 × Fin 2) ℂ : Set _)

/-- **C09 (constants).** -/
theorem C09_constants :
    M2 Xmat = σx ∧ M2 Ymat = σy ∧ M2 Zmat = σz ∧ M2 Imat = 1 ∧
    M2 Hmat * M2 Hmat = 1 ∧ M2 Smat * M2 Smat = M2 Zmat ∧ M2 Tmat * M2 Tmat = M2 Smat ∧
    M2 SXmat * M2 SXmat = M2 Xmat ∧ M2 SXmat = toC c1pi • M2 Vmat ∧
    M2 Sdagmat = (M2 Smat).conjTranspose ∧ M2 Tdagmat = (M2 Tmat).conjTranspose ∧
    M2 SXdagmat = (M2 SXmat).conjTranspose ∧ M2 Vdagmat = (M2 Vmat).conjTranspose :=
  ⟨X_eq, Y_eq, Z_eq, I_eq, H_unitary_invol.1, by rw [S_sq, Z_eq], T_sq, by rw [SX_sq, X_eq], V_SX, Sdag_eq, Tdag_eq,
    SXdag_eq, Vdag_eq⟩

/-- **C09 (Hadamard).** H exchanges X and Z. -/
theorem C09_hadamard : M2 Hmat * σx * M2 Hmat = σz ∧ M2 Hmat * σz * M2 Hmat = σx := by
  have e : M2 Hmat = !![(SQRT2 : ℂ), SQRT2; SQRT2, -SQRT2] := by
    rw [Hmat, M2_g4]
    ext i j; fin_cases i <;> fin_cases j <;> apply Complex.ext <;> simp [toC, cS, cMS]
  have s := sc
  constructor
  · rw [e]; ext i j; fin_cases i <;> fin_cases j <;> simp [σx, σz, Matrix.mul_apply, Fin.sum_univ_two, s] <;> norm_num
  · rw [e]; ext i j; fin_cases i <;> fin_cases j <;> simp [σx, σz, Matrix.mul_apply, Fin.sum_univ_two, s] <;> norm_num

/-- **C09 (unitarity of the one-qubit gates), for every angle.** -/
theorem C09_unitary2 (θ φ lam γ a : ℝ) :
    M2 Imat ∈ U2 ∧ M2 Hmat ∈ U2 ∧ M2 Xmat ∈ U2 ∧ M2 Ymat ∈ U2 ∧ M2 Zmat ∈ U2 ∧ M2 Smat ∈ U2 ∧ M2 Sdagmat ∈ U2 ∧
    M2 Tmat ∈ U2 ∧ M2 Tdagmat ∈ U2 ∧ M2 SXmat ∈ U2 ∧ M2 SXdagmat ∈ U2 ∧ M2 Vmat ∈ U2 ∧ M2 Vdagmat ∈ U2 ∧
    M2 (rx a) ∈ U2 ∧ M2 (ry a) ∈ U2 ∧ M2 (rz a) ∈ U2 ∧ M2 (u θ φ lam γ) ∈ U2 ∧ M2 (u1 lam) ∈ U2 ∧ M2 (u2 φ lam) ∈ U2 ∧
    M2 (u3 θ φ lam) ∈ U2 ∧ M2 (p a) ∈ U2 ∧ M2 (r θ φ) ∈ U2 := by
  refine ⟨?_, H_unitary, ?_, ?_, ?_, S_unitary, unitary_star S_unitary Sdag_eq, T_unitary, unitary_star T_unitary Tdag_eq,
    SX_unitary, unitary_star SX_unitary SXdag_eq, V_unitary, unitary_star V_unitary Vdag_eq, ?_, ?_, ?_,
    u_unitary _ _ _ _, u_unitary _ _ _ _, u_unitary _ _ _ _, u_unitary _ _ _ _, ?_, ?_⟩
  · rw [I_eq]; exact one_mem _
  · rw [X_eq]; exact σ_unitary σx_sq σx_h
  · rw [Y_eq]; exact σ_unitary σy_sq σy_h
  · rw [Z_eq]; exact σ_unitary σz_sq σz_h
  · rw [rx_eq]; exact rot_unitary σx_sq σx_h a
  · rw [ry_eq]; exact rot_unitary σy_sq σy_h a
  · rw [rz_eq]; exact rot_unitary σz_sq σz_h a
  · rw [← u1_eq_p]; exact u_unitary _ _ _ _
  · rw [r_eq, rz_eq, rx_eq, rz_eq]
    exact mul_mem (mul_mem (rot_unitary σz_sq σz_h _) (rot_unitary σx_sq σx_h _)) (rot_unitary σz_sq σz_h _)

/-- **C09 (rotations).** The axis rotations are `cos(a/2) - i sin(a/2) P`, and add up their angles. -/
theorem C09_rotations (a b : ℝ) :
    (M2 (rx a) = rot σx a ∧ M2 (ry a) = rot σy a ∧ M2 (rz a) = rot σz a) ∧
    (M4 (rxx a) = rot (σx ⊗ₖ σx) a ∧ M4 (ryy a) = rot (σy ⊗ₖ σy) a ∧ M4 (rzz a) = rot (σz ⊗ₖ σz) a ∧
      M4 (rzx a) = rot (σx ⊗ₖ σz) a) ∧
    (M2 (rx a) * M2 (rx b) = M2 (rx (a + b)) ∧ M2 (ry a) * M2 (ry b) = M2 (ry (a + b)) ∧
      M2 (rz a) * M2 (rz b) = M2 (rz (a + b))) ∧
    (M4 (rxx a) * M4 (rxx b) = M4 (rxx (a + b)) ∧ M4 (ryy a) * M4 (ryy b) = M4 (ryy (a + b)) ∧
      M4 (rzz a) * M4 (rzz b) = M4 (rzz (a + b)) ∧ M4 (rzx a) * M4 (rzx b) = M4 (rzx (a + b))) := by
  refine ⟨⟨rx_eq a, ry_eq a, rz_eq a⟩, ⟨rxx_eq a, ryy_eq a, rzz_eq a, rzx_eq a⟩, ⟨?_, ?_, ?_⟩, ?_, ?_, ?_, ?_⟩
  · rw [rx_eq, rx_eq, rx_eq, rot_add σx_sq]
  · rw [ry_eq, ry_eq, ry_eq, rot_add σy_sq]
  · rw [rz_eq, rz_eq, rz_eq, rot_add σz_sq]
  · rw [rxx_eq, rxx_eq, rxx_eq, rot_add (kron_sq σx_sq σx_sq)]
  · rw [ryy_eq, ryy_eq, ryy_eq, rot_add (kron_sq σy_sq σy_sq)]
  · rw [rzz_eq, rzz_eq, rzz_eq, rot_add (kron_sq σz_sq σz_sq)]
  · rw [rzx_eq, rzx_eq, rzx_eq, rot_add (kron_sq σx_sq σz_sq)]

/-- **C09 (U gates).** The Euler form `u(θ,φ,λ,γ) = e^{i(γ+(φ+λ)/2)} Rz(φ) Ry(θ) Rz(λ)` and the special cases. -/
theorem C09_u (θ φ lam γ : ℝ) :
    M2 (u θ φ lam γ) = Complex.exp ((γ + (φ + lam) / 2 : ℝ) * Complex.I) • (M2 (rz φ) * M2 (ry θ) * M2 (rz lam)) ∧
    M2 (u1 lam) = M2 (p lam) ∧ M2 (u2 φ lam) = M2 (u3 (Real.pi / 2) φ lam) ∧ M2 (u3 θ φ lam) = M2 (u θ φ lam 0) ∧
    M2 (r θ φ) = M2 (rz φ) * M2 (rx θ) * M2 (rz (-φ)) ∧
    M2 (p lam) = !![1, 0; 0, Complex.exp (lam * Complex.I)] :=
  ⟨u_euler θ φ lam γ, u1_eq_p lam, rfl, rfl, r_eq θ φ, p_eq lam⟩

/-- **C09 (unitarity of the two-qubit gates), for every angle; SWAP and iSWAP exchange the qubits.** -/
theorem C09_unitary4 (a : ℝ) :
    M4 (rxx a) ∈ U4 ∧ M4 (ryy a) ∈ U4 ∧ M4 (rzz a) ∈ U4 ∧ M4 (rzx a) ∈ U4 ∧ M4 swp ∈ U4 ∧ M4 iswp ∈ U4 ∧
    (M4 swp = fun i j => if i = (j.2, j.1) then 1 else 0) ∧
    (M4 iswp = fun i j => if i = (j.2, j.1) then (if j.1 = j.2 then 1 else Complex.I) else 0) := by
  refine ⟨?_, ?_, ?_, ?_, ?_, ?_, swp_eq, iswp_eq⟩
  · rw [rxx_eq]; exact rot_unitary (kron_sq σx_sq σx_sq) (kron_h σx_h σx_h) a
  · rw [ryy_eq]; exact rot_unitary (kron_sq σy_sq σy_sq) (kron_h σy_h σy_h) a
  · rw [rzz_eq]; exact rot_unitary (kron_sq σz_sq σz_sq) (kron_h σz_h σz_h) a
  · rw [rzx_eq]; exact rot_unitary (kron_sq σx_sq σz_sq) (kron_h σx_h σz_h) a
  · refine unitary_of ?_
    have e : ∀ i j, M4 swp i j = _ := fun i j => congrFun (congrFun swp_eq i) j
    ext ⟨i1, i2⟩ ⟨j1, j2⟩
    rw [Matrix.mul_apply]
    simp only [Matrix.conjTranspose_apply, e]
    fin_cases i1 <;> fin_cases i2 <;> fin_cases j1 <;> fin_cases j2 <;>
      simp [Matrix.mul_apply, Fintype.sum_prod_type, Fin.sum_univ_two, Matrix.conjTranspose_apply, Matrix.one_apply]
  · refine unitary_of ?_
    have e : ∀ i j, M4 iswp i j = _ := fun i j => congrFun (congrFun iswp_eq i) j
    ext ⟨i1, i2⟩ ⟨j1, j2⟩
    rw [Matrix.mul_apply]
    simp only [Matrix.conjTranspose_apply, e]
    fin_cases i1 <;> fin_cases i2 <;> fin_cases j1 <;> fin_cases j2 <;>
      simp [Matrix.mul_apply, Fintype.sum_prod_type, Fin.sum_univ_two, Matrix.conjTranspose_apply, Matrix.one_apply]

/-- A unitary named matrix has orthonormal columns in the sense of `C51_gate_norm`: applying any named gate through
the API preserves the norm. -/
theorem C09_applies {g : Nat → Nat → CR} (hg : M2 g ∈ U2) (b b' : Bool) :
    conj (g 0 (bit b)) * g 0 (bit b') + conj (g 1 (bit b)) * g 1 (bit b') = if b = b' then (1 : CR) else 0 := by
  have h1 := Matrix.UnitaryGroup.star_mul_self (⟨M2 g, hg⟩ : Matrix.unitaryGroup (Fin 2) ℂ)
  have key : ∀ i j : Fin 2, toC (conj (g 0 i) * g 0 j + conj (g 1 i) * g 1 j) = if i = j then 1 else 0 := by
    intro i j
    have := congrFun (congrFun h1 i) j
    rw [Matrix.mul_apply, Fin.sum_univ_two, Matrix.one_apply] at this
    rw [← this]
    have hc : ∀ x : CR, toC (conj x) = star (toC x) := fun x => by apply Complex.ext <;> simp [toC, conj]
    rw [toC_add, toC_mul, toC_mul, hc, hc]
    rfl
  have inj : ∀ x y : CR, toC x = toC y → x = y := fun x y hh => by
    apply Cx.ext
    · exact congrArg Complex.re hh
    · exact congrArg Complex.im hh
  apply inj
  cases b <;> cases b'
  · simpa [bit] using key 0 0
  · simpa [bit] using key 0 1
  · simpa [bit] using key 1 0
  · simpa [bit] using key 1 1

end QDD.Props
