import Mathlib.Algebra.Field.Rat
import Mathlib.RingTheory.RootsOfUnity.Complex
import Mathlib.Tactic.NormNum
import Verif.Sites.SitesC80

/-! # C80: the operators of fermions, of the t-J model and of clock spins -/

open Matrix

namespace Verif.Sites

/-- The relations of the operators of one kind of fermion. -/
structure FermiAlgebra {d : Nat} (c cd : Matrix (Fin d) (Fin d) ℚ) : Prop where
  adj : cᵀ = cd
  nil : c * c = 0
  anti : c * cd + cd * c = 1

/-- The matrix that the calls of a name give. -/
def ratMat (d : Nat) (tab : String → Option (List (Nat × Nat × ℚ))) (name : String) : Matrix (Fin d) (Fin d) ℚ :=
  mat d ((tab name).getD [])

theorem fermion_qn (n : Int) (cq cnf oe : Option Bool) (q : QNs) (h : fermionQN n cq cnf oe = some q) :
    q ∈ [⟨[-1], vals [[0], [1]]⟩, ⟨[-2], vals [[0], [1]]⟩, ⟨[1, -1], vals [[0, 0], [1, 1]]⟩,
      (⟨[1, -1], vals [[0, 0], [-1, 1]]⟩ : QNs)] := by
  unfold fermionQN at h
  simp only at h
  split_ifs at h <;> cases h <;> simp

/-- **C80.** Spinless fermions: for all arguments the operators exist and anticommute as they should; "A" and "Adag" are
the operators without strings, "F" counts the parity. -/
theorem C80_fermion (n : Int) (cq cnf oe : Option Bool) : ∃ f : String → Matrix (Fin 2) (Fin 2) ℚ,
    (∀ m ∈ ["N", "n", "C", "Cdag", "A", "Adag", "F", "FermiPhase", "projEmp", "projOcc"],
      op 2 (fermionQN n cq cnf oe) fermionOp m = .ok (f m)) ∧
    FermiAlgebra (f "C") (f "Cdag") ∧ f "A" = f "C" ∧ f "Adag" = f "Cdag" ∧ f "N" = f "Cdag" * f "C" ∧
    f "n" = f "N" ∧ f "F" = 1 - 2 • f "N" ∧ f "FermiPhase" = f "F" ∧
    f "F" * f "C" + f "C" * f "F" = 0 ∧ f "F" * f "Cdag" + f "Cdag" * f "F" = 0 ∧
    f "projOcc" = f "N" ∧ f "projEmp" = 1 - f "N" := by
  refine ⟨ratMat 2 fermionOp, names_ok (by rfl) (fermion_qn n cq cnf oe), ⟨?_, ?_, ?_⟩, ?_⟩ <;> decide +kernel

theorem electron_qn (cq cnf csz : Option Bool) (q : QNs) (h : electronQN cq cnf csz = some q) :
    q ∈ [⟨[1, -1], vals [[0, 0], [1, 1], [-1, 1], [0, 2]]⟩, ⟨[-1], vals [[0], [1], [1], [2]]⟩,
      ⟨[1, -2], vals [[0, 0], [1, 1], [-1, 1], [0, 0]]⟩, (⟨[-2], vals [[0], [1], [1], [0]]⟩ : QNs)] := by
  unfold electronQN at h
  simp only at h
  split_ifs at h <;> cases h <;> simp

/-- **C80.** Electrons: for all arguments the operators exist, operators of the two kinds anticommute on the site, the
operators without strings give those with strings, and the spin operators are the bilinear expressions. -/
theorem C80_electron (cq cnf csz : Option Bool) : ∃ f : String → Matrix (Fin 4) (Fin 4) ℚ,
    (∀ m ∈ ["Nup", "Ndn", "Nupdn", "Ntot", "Cup", "Cdagup", "Cdn", "Cdagdn", "Aup", "Adagup", "Adn", "Adagdn",
      "FermiPhase", "F", "Fup", "Fdn", "Sz", "S+", "S-", "S2"], op 4 (electronQN cq cnf csz) electronOp m = .ok (f m)) ∧
    FermiAlgebra (f "Cup") (f "Cdagup") ∧ FermiAlgebra (f "Cdn") (f "Cdagdn") ∧
    f "Cup" * f "Cdn" + f "Cdn" * f "Cup" = 0 ∧ f "Cup" * f "Cdagdn" + f "Cdagdn" * f "Cup" = 0 ∧
    f "Nup" = f "Cdagup" * f "Cup" ∧ f "Ndn" = f "Cdagdn" * f "Cdn" ∧ f "Ntot" = f "Nup" + f "Ndn" ∧
    f "Nupdn" = f "Nup" * f "Ndn" ∧
    f "Fup" = 1 - 2 • f "Nup" ∧ f "Fdn" = 1 - 2 • f "Ndn" ∧ f "F" = f "Fup" * f "Fdn" ∧ f "FermiPhase" = f "F" ∧
    f "Aup" = f "Cup" ∧ f "Adagup" = f "Cdagup" ∧ f "Cdn" = f "Fup" * f "Adn" ∧ f "Cdagdn" = f "Fup" * f "Adagdn" ∧
    f "Aup" * f "Adn" = f "Adn" * f "Aup" ∧ (f "Adn")ᵀ = f "Adagdn" ∧
    f "F" * f "Cup" + f "Cup" * f "F" = 0 ∧ f "F" * f "Cdn" + f "Cdn" * f "F" = 0 ∧
    f "S+" = f "Cdagup" * f "Cdn" ∧ f "S-" = f "Cdagdn" * f "Cup" ∧ 2 • f "Sz" = f "Nup" - f "Ndn" ∧
    2 • f "S2" = 2 • (f "Sz" * f "Sz") + (f "S+" * f "S-" + f "S-" * f "S+") := by
  refine ⟨ratMat 4 electronOp, names_ok (by rfl) (electron_qn cq cnf csz), ⟨?_, ?_, ?_⟩, ⟨?_, ?_, ?_⟩, ?_⟩ <;>
    decide +kernel

theorem tj_qn (cq cnf csz : Option Bool) (q : QNs) (h : tjQN cq cnf csz = some q) :
    q ∈ [⟨[1, -1], vals [[0, 0], [1, 1], [-1, 1]]⟩, ⟨[1, -1], vals [[0, 0], [0, 1], [0, 1]]⟩,
      ⟨[1, -2], vals [[0, 0], [1, 1], [-1, 1]]⟩, (⟨[-2], vals [[0], [1], [1]]⟩ : QNs)] := by
  unfold tjQN at h
  simp only at h
  split_ifs at h <;> cases h <;> simp

/-- **C80.** The t-J model, all operators but "Sx": the operators are those of the electrons on the states with at most
one electron. -/
theorem C80_tj_partial (cq cnf csz : Option Bool) : ∃ (f : String → Matrix (Fin 3) (Fin 3) ℚ)
    (e : String → Matrix (Fin 4) (Fin 4) ℚ),
    (∀ m ∈ ["Nup", "Ndn", "Ntot", "Cup", "Cdagup", "Cdn", "Cdagdn", "Aup", "Adagup", "Adn", "Adagdn", "FermiPhase", "F",
      "Fup", "Fdn", "Sz", "S+", "Sp", "S-", "Sm"], op 3 (tjQN cq cnf csz) tjOp m = .ok (f m)) ∧
    (∀ m ∈ ["Nup", "Ndn", "Ntot", "Cup", "Cdagup", "Cdn", "Cdagdn", "Aup", "Adagup", "Adn", "Adagdn", "FermiPhase", "F",
      "Fup", "Fdn", "Sz", "S+", "S-"], op 4 (electronQN cq cnf csz) electronOp m = .ok (e m) ∧
      ∀ i j : Fin 3, f m i j = e m i.castSucc j.castSucc) ∧
    f "Sp" = f "S+" ∧ f "Sm" = f "S-" := by
  refine ⟨ratMat 3 tjOp, ratMat 4 electronOp, names_ok (by rfl) (tj_qn cq cnf csz), fun m hm => ⟨?_, ?_⟩, rfl, rfl⟩
  · exact names_ok (names := ["Nup", "Ndn", "Ntot", "Cup", "Cdagup", "Cdn", "Cdagdn", "Aup", "Adagup", "Adn", "Adagdn",
      "FermiPhase", "F", "Fup", "Fdn", "Sz", "S+", "S-"]) (by rfl) (electron_qn cq cnf csz) m hm
  · simp only [List.mem_cons, List.not_mem_nil, or_false] at hm
    rcases hm with rfl | rfl | rfl | rfl | rfl | rfl | rfl | rfl | rfl | rfl | rfl | rfl | rfl | rfl | rfl | rfl | rfl |
      rfl <;> intro i j <;> fin_cases i <;> fin_cases j <;> decide +kernel

/-- The operator "Sx" of the t-J model is twice (S+ + S-)/2. -/
theorem C80_tj_sx_counterexample : ∃ Sx Sp Sm, op 3 none tjOp "Sx" = .ok Sx ∧ op 3 none tjOp "S+" = .ok Sp ∧
    op 3 none tjOp "S-" = .ok Sm ∧ Sx = Sp + Sm ∧ Sx ≠ (1 / 2 : ℚ) • (Sp + Sm) := by
  refine ⟨ratMat 3 tjOp "Sx", ratMat 3 tjOp "S+", ratMat 3 tjOp "S-", ?_, ?_, ?_, ?_, ?_⟩
  · exact names_ok (names := ["Sx"]) (qs := []) (by rfl) (by rintro q ⟨⟩) _ (by simp)
  · exact names_ok (names := ["S+"]) (qs := []) (by rfl) (by rintro q ⟨⟩) _ (by simp)
  · exact names_ok (names := ["S-"]) (qs := []) (by rfl) (by rintro q ⟨⟩) _ (by simp)
  · decide +kernel
  · decide +kernel

/-! ## Clock spins -/

/-- The number ω of the clock. -/
noncomputable def omega : ℂ := Complex.exp (2 * Real.pi * Complex.I / 3)

theorem omega_eq : (Real.cos (2 * Real.pi / 3) : ℂ) + (Real.sin (2 * Real.pi / 3) : ℂ) * Complex.I = omega := by
  rw [omega, show (2 * Real.pi * Complex.I / 3 : ℂ) = ((2 * Real.pi / 3 : ℝ) : ℂ) * Complex.I by push_cast; ring,
    Complex.exp_mul_I]
  push_cast
  rfl

theorem omega_sq : (Real.cos (4 * Real.pi / 3) : ℂ) + (Real.sin (4 * Real.pi / 3) : ℂ) * Complex.I = omega ^ 2 := by
  rw [omega, ← Complex.exp_nat_mul,
    show ((2 : ℕ) * (2 * Real.pi * Complex.I / 3) : ℂ) = ((4 * Real.pi / 3 : ℝ) : ℂ) * Complex.I by push_cast; ring,
    Complex.exp_mul_I]
  push_cast
  rfl

theorem omega_cube : omega ^ 3 = 1 := by
  rw [omega, ← Complex.exp_nat_mul, show ((3 : ℕ) * (2 * Real.pi * Complex.I / 3) : ℂ) = 2 * Real.pi * Complex.I by
    push_cast; ring, Complex.exp_two_pi_mul_I]

theorem conj_form (a b : ℝ) : (a : ℂ) - (b : ℂ) * Complex.I = (starRingEnd ℂ) ((a : ℂ) + (b : ℂ) * Complex.I) := by
  simp [sub_eq_add_neg]

theorem omega_primitive : omega ≠ 1 := by
  have : IsPrimitiveRoot (Complex.exp (2 * Real.pi * Complex.I / (3 : ℕ))) 3 := Complex.isPrimitiveRoot_exp 3 (by norm_num)
  have h := this.ne_one (by norm_num)
  simpa [omega] using h

theorem z3_qn (cq : Option Bool) (q : QNs) (h : z3QN cq = some q) : q ∈ [(⟨[3], vals [[0], [1], [2]]⟩ : QNs)] := by
  unfold z3QN at h
  split_ifs at h
  cases h; simp

/-- The calls of `Z3Site::op` with the phases written as powers of ω. -/
noncomputable def z3Mat (name : String) : Matrix (Fin 3) (Fin 3) ℂ := tabMat 3 z3Op name

theorem z3_tau : z3Mat "Tau" = diagonal ![1, omega, omega ^ 2] := by
  have h : z3Op "Tau" = some [(1, 1, 1), (2, 2, omega), (3, 3, omega ^ 2)] := by
    rw [← omega_sq, ← omega_eq]; rfl
  ext i j
  fin_cases i <;> fin_cases j <;> simp [z3Mat, tabMat, mat_apply, h]

theorem z3_taudag : z3Mat "TauDag" = diagonal ![1, star omega, star omega ^ 2] := by
  have h : z3Op "TauDag" = some [(1, 1, 1), (2, 2, star omega), (3, 3, star omega ^ 2)] := by
    rw [← star_pow, ← omega_sq, ← omega_eq]
    simp only [Complex.star_def, ← conj_form]
    rfl
  ext i j
  fin_cases i <;> fin_cases j <;> simp [z3Mat, tabMat, mat_apply, h]

/-- **C80.** Clock spins with three states: "Sig" lowers the state, "Tau" is ω to the power of the state, and they
commute up to ω. -/
theorem C80_z3 (cq : Option Bool) : ∃ f : String → Matrix (Fin 3) (Fin 3) ℂ,
    (∀ m ∈ ["N", "Sig", "SigDag", "Tau", "TauDag", "Proj0", "Proj1", "Proj2"], op 3 (z3QN cq) z3Op m = .ok (f m)) ∧
    (f "Sig")ᴴ = f "SigDag" ∧ (f "Tau")ᴴ = f "TauDag" ∧ f "Sig" * f "Sig" * f "Sig" = 1 ∧
    f "Tau" * f "Tau" * f "Tau" = 1 ∧ f "Sig" * f "SigDag" = 1 ∧ f "Tau" * f "TauDag" = 1 ∧
    f "Sig" * f "Tau" = Complex.exp (2 * Real.pi * Complex.I / 3) • (f "Tau" * f "Sig") ∧
    (∀ i, f "Tau" i i = Complex.exp (2 * Real.pi * Complex.I / 3) ^ i.val ∧ f "N" i i = i.val) ∧
    (∀ i j, i ≠ j → f "Tau" i j = 0 ∧ f "N" i j = 0) ∧ (∀ i j : Fin 3, f "Sig" i j = if i + 1 = j then 1 else 0) ∧
    f "Proj0" = single 0 0 1 ∧ f "Proj1" = single 1 1 1 ∧ f "Proj2" = single 2 2 1 := by
  have hc := omega_cube
  have ho : omega * omega ^ 2 = 1 := by rw [← hc]; ring
  have hn : star omega * omega = 1 := by
    have : ‖omega‖ = 1 := by
      rw [omega, show (2 * Real.pi * Complex.I / 3 : ℂ) = ((2 * Real.pi / 3 : ℝ) : ℂ) * Complex.I by push_cast; ring]
      exact Complex.norm_exp_ofReal_mul_I _
    rw [Complex.star_def, Complex.conj_mul', this]
    norm_num
  have hn' : omega * star omega = 1 := by rw [mul_comm]; exact hn
  have hn2 : omega ^ 2 * star omega ^ 2 = 1 := by rw [← mul_pow, hn', one_pow]
  refine ⟨z3Mat, names_ok (by rfl) (z3_qn cq), ?_, ?_, ?_, ?_, ?_, ?_, ?_, ?_, ?_, ?_, ?_, ?_, ?_⟩
  · elements [z3Mat, z3Op]
  · rw [z3_tau, z3_taudag, diagonal_conjTranspose]
    congr 1
    ext i
    fin_cases i <;> simp
  · elements [z3Mat, z3Op]
  · rw [z3_tau, diagonal_mul_diagonal, diagonal_mul_diagonal]
    ext i j
    fin_cases i <;> fin_cases j <;> simp
    · rw [← hc]; ring
    · linear_combination (omega ^ 3 + 1) * hc
  · elements [z3Mat, z3Op]
  · rw [z3_tau, z3_taudag, diagonal_mul_diagonal]
    ext i j
    fin_cases i <;> fin_cases j <;> simp
    · exact hn'
    · exact hn2
  · change _ = omega • _
    ext i j
    rw [z3_tau, Matrix.smul_apply, mul_diagonal, diagonal_mul]
    fin_cases i <;> fin_cases j <;> simp [z3Mat, tabMat, mat_apply, z3Op]
    · ring
    · exact ho.symm
  · intro i
    constructor
    · rw [z3_tau]
      change _ = omega ^ _
      fin_cases i <;> simp
    · fin_cases i <;> simp [z3Mat, tabMat, mat_apply, z3Op]
  · intro i j hij
    constructor
    · rw [z3_tau, diagonal_apply_ne _ hij]
    · revert hij
      fin_cases i <;> fin_cases j <;> simp [z3Mat, tabMat, mat_apply, z3Op]
  · intro i j
    fin_cases i <;> fin_cases j <;> simp [z3Mat, tabMat, mat_apply, z3Op]
  · elements [z3Mat, z3Op, single_apply]
  · elements [z3Mat, z3Op, single_apply]
  · elements [z3Mat, z3Op, single_apply]

/-! ## Examples -/

/-- A spin 3/2 with conserved Sz. -/
example : ∃ q, customQN 3 none none = .ok (some q) ∧ q.vals 1 = [-3] ∧ q.vals 4 = [3] := ⟨_, rfl, rfl, rfl⟩

/-- The state "-3" of a spin 3/2 is the first. -/
example : customState 3 "-3" = .ok 1 ∧ customState 3 "1" = .ok 3 ∧ customState 3 "0" = .throw := by decide +kernel

/-- Arguments that are not accepted. -/
example : customQN 3 (some false) (some true) = .throw ∧ bosonQN (some false) none = .ok none := ⟨rfl, rfl⟩

/-- An operator with a flux. -/
example : ∃ M, op 4 (electronQN none none none) electronOp "Cdagdn" = .ok M ∧ M 3 1 = -1 ∧ M 2 0 = 1 :=
  ⟨ratMat 4 electronOp "Cdagdn", names_ok (names := ["Cdagdn"]) (by rfl) (electron_qn none none none) _ (by simp),
    by decide +kernel, by decide +kernel⟩

end Verif.Sites
