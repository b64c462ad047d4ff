import Mathlib.Algebra.Star.Rat
import Verif.AutoMPO.JWExact
import Verif.AutoMPO.SvdVec

/-!
# The default conversion gives the operator which was entered (C65)
-/

namespace Verif.AutoMPO

open Finset

variable {K : Type*} [CommRing K] [StarRing K] {Q : Type*} [AddCommMonoid Q] [DecidableEq Q]
variable {qn : SiteTerm → Q} {terms : List (HTerm K)} {N : Nat} {near : K → K → Bool} {tiny : K → Bool} {svd : Svd Q K}

section Factorizations

/-- A singular value decomposition from which only singular values which are zero were dropped keeps the matrix. -/
theorem keeps_of_svd {mat : List ((Nat × Nat) × K)} {f : Nat × (Nat → Nat → K)} (U : Nat → Nat → K) (D : Nat → K)
    (hM : ∀ l < nrows mat, ∀ j < ncols mat, toMatrix mat l j = ∑ r ∈ range f.1, U l r * D r * Star.star (f.2 j r))
    (hV : ∀ r < f.1, ∀ r' < f.1, ∑ k ∈ range (ncols mat), Star.star (f.2 k r) * f.2 k r' = if r = r' then 1 else 0) :
    Keeps mat f := by
  intro l hl j hj
  have h1 : ∀ k ∈ range (ncols mat), toMatrix mat l k * ∑ r ∈ range f.1, f.2 k r * Star.star (f.2 j r) =
      ∑ r ∈ range f.1, ∑ r' ∈ range f.1, U l r' * D r' * Star.star (f.2 j r) * (Star.star (f.2 k r') * f.2 k r) := by
    intro k hk
    rw [hM l hl k (by simpa using hk), Finset.sum_mul_sum, Finset.sum_comm]
    refine Finset.sum_congr rfl fun r _ => Finset.sum_congr rfl fun r' _ => ?_
    ring
  rw [Finset.sum_congr rfl h1, Finset.sum_comm, hM l hl j hj]
  refine Finset.sum_congr rfl fun r hr => ?_
  rw [Finset.sum_comm, Finset.sum_congr rfl fun r' hr' => by
    rw [← Finset.mul_sum, hV r' (by simpa using hr') r (by simpa using hr)]]
  simp [Finset.mem_range.1 hr]

/-- Without any compression nothing is lost. -/
theorem keeps_id (mat : List ((Nat × Nat) × K)) : Keeps mat (ncols mat, fun i j => if i = j then 1 else 0) := by
  intro l _ j hj
  have : ∀ k ∈ range (ncols mat), (∑ r ∈ range (ncols mat), (if k = r then (1 : K) else 0) * Star.star (if j = r then (1 : K) else 0)) =
      if k = j then 1 else 0 := by
    intro k hk
    rw [Finset.sum_eq_single k]
    · by_cases h : k = j
      · simp [h]
      · simp [h, Ne.symm h]
    · intro r _ hr
      simp [Ne.symm hr]
    · simp [Finset.mem_range.1 hk]
  simp only
  rw [Finset.sum_congr rfl fun k hk => by rw [this k hk]]
  simp [hj]

end Factorizations

variable {D : Fin N → Nat}
variable {ops : Name → ∀ n : Fin N, Option (Matrix (Fin (D n)) (Fin (D n)) K)} {P : Name → Prop} [DecidablePred P]

/-- The element of `computeProd(sites,prod)` on site `m` (from 1), for the values `s` of the primed site indices and `t` of
the site indices (autompo.cc:1385). -/
def opElement (ops : Name → ∀ n : Fin N, Option (Matrix (Fin (D n)) (Fin (D n)) K)) (s t : ∀ n, Fin (D n))
    (prod : List SiteTerm) (m : Nat) : K :=
  if h : m - 1 < N then
    match computeProd (at' ops ⟨m - 1, h⟩) prod with
    | .ok x => x (s ⟨m - 1, h⟩) (t ⟨m - 1, h⟩)
    | _ => 0
  else 0

omit [StarRing K] in
theorem term_svd (A : Fermi ops P) {l : List SiteTerm} (hs : l.Pairwise fun a b => a.i ≤ b.i)
    (hl : ∀ t ∈ l, P t.op ∧ 1 ≤ t.i ∧ t.i ≤ N ∧ ∀ n : Fin N, ((n.val + 1 : Nat) : Int) = t.i → (ops t.op n).isSome)
    (he : fermiProd l = false) (s t : ∀ n, Fin (D n)) :
    prodTo (fun m => opElement ops s t (locOps (m : Int) l) m) N = (l.map fun st => jw A st.op st.i).prod s t := by
  have := prodOps_jw A l fun t ht => ⟨(hl t ht).1, (hl t ht).2.1, (hl t ht).2.2.1⟩
  rw [prodOps] at this
  rw [this, prodTo_fin, kron, Matrix.of_apply]
  refine Finset.prod_congr rfl fun n _ => ?_
  have h := onsite_ok A hs hl he n
  rw [onsite_eq _ hs, Res.bind_ok] at h
  obtain ⟨n, hn⟩ := n
  rw [opElement, dif_pos (show n + 1 - 1 < N from hn)]
  simp only at h
  have e : computeProd (at' ops ⟨n + 1 - 1, hn⟩) (locOps ((n + 1 : Nat) : Int) l) = _ := h
  rw [e]
  rfl

/-- **C65**: If each term has its operators in order, an even number of fermionic operators and no flux, the stored products
differ, and the factorizations lose nothing, then the matrix product operator is the sum of the products of the operators of
the terms, where those of fermions anticommute (`jw_graded`).

Missing: terms with an odd number of fermionic operators, with coefficients below 1E-14, and with names which the rewriting
makes the same (false, see the counterexamples in `SvdEx.lean`); terms with flux. -/
theorem C65_operator_partial (A : Fermi ops P) (hnear : ∀ x, near x x = true) (h1 : tiny 1 = false) (hok : TermsOk qn terms N)
    (ht : ∀ t ∈ terms, tiny t.coef = false)
    (hsvd : ∀ s, partition qn near terms = .ok s → ∀ n q, Keeps (s.mat n q) (svd n q))
    (hl : ∀ t ∈ terms, ∀ u ∈ t.ops, P u.op ∧ ∀ n : Fin N, ((n.val + 1 : Nat) : Int) = u.i → (ops u.op n).isSome)
    (s t : ∀ n, Fin (D n)) :
    svdElement qn near (opElement ops s t) tiny svd terms N =
      .ok ((terms.map fun u => u.coef • (u.ops.map fun st => jw A st.op st.i).prod).sum s t) := by
  rw [C65_svd_partial hnear h1 hok ht hsvd]
  congr 1
  have : ∀ l : List (HTerm K), (∀ u ∈ l, u ∈ terms) →
      (l.map fun u => u.coef * prodTo (fun m => opElement ops s t (locOps (m : Int) u.ops) m) N).sum =
        (l.map fun u => u.coef • (u.ops.map fun st => jw A st.op st.i).prod).sum s t := by
    intro l
    induction l with
    | nil => simp
    | cons u l ih =>
      intro h
      have hu := h u (by simp)
      rw [List.map_cons, List.sum_cons, ih fun v hv => h v (by simp [hv]), List.map_cons, List.sum_cons, Matrix.add_apply,
        Matrix.smul_apply, smul_eq_mul]
      congr 2
      exact term_svd A (hok.sorted u hu) (fun v hv => ⟨(hl u hu v hv).1, (hok.range u hu v hv).1, (hok.range u hu v hv).2,
        (hl u hu v hv).2⟩) (hok.even u hu) s t
  exact this terms fun _ h => h

/-- **C65** from the statements of a program on: what is converted is the sum of the entered products, with their operators
in the order of entry.

Missing: what `C65_operator_partial` misses. -/
theorem C65_program_partial [DecidableEq K] (A : Fermi ops P) (hnear : ∀ x, near x x = true) (h1 : tiny 1 = false)
    (prog : List (List (Factor K))) (items : List (Item K × List (Item K)))
    (hi : prog.map (·.flatMap Factor.items) = items.map fun x => x.1 :: x.2)
    (hp : ∀ fs ∈ prog, fs.filterMap Factor.site ≠ []) :
    ∃ terms, program items = .ok terms ∧
      (TermsOk qn terms N → (∀ t ∈ terms, tiny t.coef = false) →
        (∀ s, partition qn near terms = .ok s → ∀ n q, Keeps (s.mat n q) (svd n q)) →
        (∀ t ∈ terms, ∀ u ∈ t.ops, P u.op ∧ ∀ n : Fin N, ((n.val + 1 : Nat) : Int) = u.i → (ops u.op n).isSome) →
        ∀ s t : ∀ n, Fin (D n), svdElement qn near (opElement ops s t) tiny svd terms N =
          .ok ((prog.map fun fs => (fs.map Factor.scalar).prod •
            ((fs.filterMap Factor.site).map fun u => jw A u.op u.i).prod).sum s t)) := by
  obtain ⟨terms, e1, e2, _⟩ := C49_program (jw A) (jw_graded A) prog items hi hp
  refine ⟨terms, e1, fun hok ht hsvd hl s t => ?_⟩
  rw [C65_operator_partial A hnear h1 hok ht hsvd hl s t, ← e2]
  rfl

omit [StarRing K] [DecidablePred P] in
/-- Sites without fermions: `F` is the identity, and no name starts with `C`. Then the operators of a term commute, and
`jw A a i` is the operator `a` of site `i` times the identity on all others. -/
def plain (hF : ∀ n, ops nF n = some 1) (hId : ∀ n, ops nId n = some 1) : Fermi ops (fun a => fermiName a = false) where
  F _ := 1
  F_op := hF
  Id_op := hId
  F_F _ := by simp
  odd a n x ha hf _ := by rw [ha] at hf; exact absurd hf (by simp)
  even a n x _ _ _ := by simp
  rewrite a n ha hf := by rw [ha] at hf; exact absurd hf (by simp)

/-- Names which do not start with `C` are not rewritten, so the condition on the names always holds. -/
theorem names_plain {a b : Name} (ha : fermiName a = false) (hb : fermiName b = false)
    (h : fermionicTerm a = fermionicTerm b) : a = b := by
  have : ∀ c : Name, fermiName c = false → fermionicTerm c = c := fun c hc =>
    fermionicTerm_not fun h => by rw [tab3 c h] at hc; exact absurd hc (by simp)
  rwa [this a ha, this b hb] at h

end Verif.AutoMPO
