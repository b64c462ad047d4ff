import Verif.Sites.TableC80

/-! # C80: the operators of the site types satisfy their algebra, and where they do not -/

open Matrix

namespace Verif.Sites

section

variable {R : Type*} [Zero R]

/-- The flux of the calls at these positions is the same. -/
def posOk (q : QNs) (l : List (Nat × Nat)) : Bool := l.all fun p => l.all fun p' => q.flux p.1 p.2 = q.flux p'.1 p'.2

/-- Every index of the list accepts the calls. -/
def allOk (qs : List QNs) (l : List (Nat × Nat × R)) : Bool := qs.all fun q => posOk q (l.map fun p => (p.1, p.2.1))

theorem uniform_pos {qs : List QNs} {l : List (Nat × Nat × R)} (h : allOk qs l = true) {q : Option QNs}
    (hq : ∀ q', q = some q' → q' ∈ qs) : Uniform q l := by
  intro q' hq' p hp p' hp'
  have h1 := List.all_eq_true.1 h q' (hq q' hq')
  have h2 := List.all_eq_true.1 h1 _ (List.mem_map_of_mem hp)
  exact of_decide_eq_true (List.all_eq_true.1 h2 _ (List.mem_map_of_mem hp'))

/-- The names of a list are accepted by every index of a list. -/
theorem names_ok {d : Nat} {tab : String → Option (List (Nat × Nat × R))} {qs : List QNs} {names : List String}
    (h : (names.all fun n => match tab n with
      | none => false
      | some l => allOk qs l) = true) {q : Option QNs} (hq : ∀ q', q = some q' → q' ∈ qs) :
    ∀ n ∈ names, op d q tab n = .ok (mat d ((tab n).getD [])) := by
  intro n hn
  have := List.all_eq_true.1 h n hn
  cases hl : tab n with
  | none => simp only [hl] at this; cases this
  | some l => simp only [hl] at this; exact op_ok hl (uniform_pos this hq)

end

/-! ## Spin 1/2, 1, 2 -/

/-- The indices with quantum numbers of a spin 1/2. -/
theorem half_qn (cq csz cp : Option Bool) (q : QNs) (h : halfQN cq csz cp = some q) :
    q ∈ [⟨[1, 2], vals [[1, 1], [-1, 0]]⟩, ⟨[1], vals [[1], [-1]]⟩, ⟨[2], vals [[1], [0]]⟩] := by
  unfold halfQN at h
  simp only at h
  split_ifs at h <;> cases h <;> simp

/-- **C80.** Spin 1/2: for all arguments the operators exist and are those of a spin 1/2; "Sx", "Sy" and "ISy" exist
when "Sz" is not conserved and throw when it is. -/
theorem C80_half (cq csz cp : Option Bool) : ∃ f : String → Matrix (Fin 2) (Fin 2) ℂ,
    (∀ n ∈ ["Sz", "S+", "Sp", "S-", "Sm", "projUp", "projDn", "S2"], op 2 (halfQN cq csz cp) halfOp n = .ok (f n)) ∧
    (∀ n ∈ ["Sx", "Sy", "ISy"], op 2 (halfQN cq csz cp) halfOp n =
      if csz.getD (cq.getD true) then .throw else .ok (f n)) ∧
    SpinAlgebra (1 / 2) (f "Sz") (f "S+") (f "S-") ∧ SpinXY (f "S+") (f "S-") (f "Sx") (f "Sy") (f "ISy") ∧
    f "Sp" = f "S+" ∧ f "Sm" = f "S-" ∧ f "S2" = (1 / 2 * (1 / 2 + 1) : ℂ) • 1 ∧
    f "projUp" = single 0 0 1 ∧ f "projDn" = single 1 1 1 := by
  refine ⟨tabMat 2 halfOp, names_ok (by rfl) (half_qn cq csz cp), ?_, half_spin, half_xy, rfl, rfl, ?_, ?_, ?_⟩
  · intro n hn
    by_cases hs : csz.getD (cq.getD true) = true
    · rw [if_pos hs]
      simp only [List.mem_cons, List.not_mem_nil, or_false] at hn
      unfold halfQN
      simp only [hs, true_and, if_true]
      split_ifs <;> rcases hn with rfl | rfl | rfl <;>
        exact op_throw rfl List.mem_cons_self (List.mem_cons_of_mem _ List.mem_cons_self) (by decide)
    · rw [if_neg hs]
      unfold halfQN
      simp only [hs, false_and, if_false, Bool.false_eq_true]
      split_ifs
      · exact names_ok (qs := [⟨[2], vals [[1], [0]]⟩]) (by rfl) (by rintro q' ⟨⟩; simp) n hn
      · exact names_ok (qs := []) (by rfl) (by rintro q' ⟨⟩) n hn
  · elements [halfOp]
  · elements [halfOp, single_apply]
  · elements [halfOp, single_apply]

theorem one_qn (cq csz : Option Bool) (q : QNs) (h : oneQN cq csz = some q) :
    q ∈ [(⟨[1], vals [[2], [0], [-2]]⟩ : QNs)] := by
  unfold oneQN at h
  split_ifs at h
  cases h; simp

theorem two_qn (cq csz : Option Bool) (q : QNs) (h : twoQN cq csz = some q) :
    q ∈ [(⟨[1], vals [[4], [2], [0], [-2], [-4]]⟩ : QNs)] := by
  unfold twoQN at h
  split_ifs at h
  cases h; simp

/-- **C80.** Spin 1. -/
theorem C80_one (cq csz : Option Bool) : ∃ f : String → Matrix (Fin 3) (Fin 3) ℂ,
    (∀ n ∈ ["Sz", "S+", "Sp", "S-", "Sm", "Sz2", "projUp", "projZ0", "projDn", "S2"],
      op 3 (oneQN cq csz) oneOp n = .ok (f n)) ∧
    (∀ n ∈ ["Sx", "Sy", "ISy", "Sx2", "Sy2"], op 3 (oneQN cq csz) oneOp n =
      if csz.getD (cq.getD true) then .throw else .ok (f n)) ∧
    SpinAlgebra 1 (f "Sz") (f "S+") (f "S-") ∧ SpinXY (f "S+") (f "S-") (f "Sx") (f "Sy") (f "ISy") ∧
    f "Sz2" = f "Sz" * f "Sz" ∧ f "Sx2" = f "Sx" * f "Sx" ∧ f "Sy2" = f "Sy" * f "Sy" ∧
    f "Sp" = f "S+" ∧ f "Sm" = f "S-" ∧ f "S2" = (1 * (1 + 1) : ℂ) • 1 ∧
    f "projUp" = single 0 0 1 ∧ f "projZ0" = single 1 1 1 ∧ f "projDn" = single 2 2 1 := by
  refine ⟨tabMat 3 oneOp, names_ok (by rfl) (one_qn cq csz), ?_, one_spin, one_xy, one_squares.1, one_squares.2.1,
    one_squares.2.2, rfl, rfl, ?_, ?_, ?_, ?_⟩
  · intro n hn
    by_cases hs : csz.getD (cq.getD true) = true
    · rw [if_pos hs]
      simp only [List.mem_cons, List.not_mem_nil, or_false] at hn
      unfold oneQN
      rw [if_pos hs]
      rcases hn with rfl | rfl | rfl | rfl | rfl <;>
        exact op_throw rfl List.mem_cons_self (List.mem_cons_of_mem _ List.mem_cons_self) (by decide)
    · rw [if_neg hs]
      unfold oneQN
      rw [if_neg hs]
      exact names_ok (qs := []) (by rfl) (by rintro q' ⟨⟩) n hn
  · elements [oneOp]
  · elements [oneOp, single_apply]
  · elements [oneOp, single_apply]
  · elements [oneOp, single_apply]

/-- The states along the x axis are the normalized eigenvectors of "Sx". -/
theorem C80_one_x : ∃ u z d Sx, oneVec "XUp" = some u ∧ oneVec "XZ0" = some z ∧ oneVec "XDn" = some d ∧
    op 3 none oneOp "Sx" = .ok Sx ∧ Sx *ᵥ u = u ∧ Sx *ᵥ z = 0 ∧ Sx *ᵥ d = -d ∧
    star u ⬝ᵥ u = 1 ∧ star z ⬝ᵥ z = 1 ∧ star d ⬝ᵥ d = 1 := by
  have hs : sqrt2 * sqrt2 = 2 := sqrt2_sq
  refine ⟨_, _, _, _, rfl, rfl, rfl, tab_ok rfl, ?_, ?_, ?_, ?_, ?_, ?_⟩
  · ext i
    fin_cases i <;> simp [tabMat, mat_apply, oneOp, mulVec, dotProduct, Fin.sum_univ_succ, isqrt2_eq] <;> ring_nf <;>
      simp <;> ring
  · ext i
    fin_cases i <;> simp [tabMat, mat_apply, oneOp, mulVec, dotProduct, Fin.sum_univ_succ, isqrt2_eq] <;> ring_nf <;>
      simp <;> ring
  · ext i
    fin_cases i <;> simp [tabMat, mat_apply, oneOp, mulVec, dotProduct, Fin.sum_univ_succ, isqrt2_eq] <;> ring_nf <;>
      simp <;> ring
  all_goals simp [dotProduct, Fin.sum_univ_succ, isqrt2_eq]; ring_nf; simp [map_ofNat]; try norm_num

/-- **C80.** Spin 2, all operators but "S2". -/
theorem C80_two_partial (cq csz : Option Bool) : ∃ f : String → Matrix (Fin 5) (Fin 5) ℂ,
    (∀ n ∈ ["Sz", "S+", "Sp", "S-", "Sm", "Sz2", "projUp", "projUpi", "projZ0", "projDni", "projDn"],
      op 5 (twoQN cq csz) twoOp n = .ok (f n)) ∧
    (∀ n ∈ ["Sx", "Sy", "ISy", "Sx2", "Sy2"], op 5 (twoQN cq csz) twoOp n =
      if csz.getD (cq.getD true) then .throw else .ok (f n)) ∧
    SpinAlgebra 2 (f "Sz") (f "S+") (f "S-") ∧ SpinXY (f "S+") (f "S-") (f "Sx") (f "Sy") (f "ISy") ∧
    f "Sz2" = f "Sz" * f "Sz" ∧ f "Sx2" = f "Sx" * f "Sx" ∧ f "Sy2" = f "Sy" * f "Sy" ∧
    f "Sp" = f "S+" ∧ f "Sm" = f "S-" ∧
    f "projUp" = single 0 0 1 ∧ f "projUpi" = single 1 1 1 ∧ f "projZ0" = single 2 2 1 ∧
    f "projDni" = single 3 3 1 ∧ f "projDn" = single 4 4 1 := by
  refine ⟨tabMat 5 twoOp, names_ok (by rfl) (two_qn cq csz), ?_, two_spin, two_xy, two_squares.1, two_squares.2.1,
    two_squares.2.2, rfl, rfl, ?_, ?_, ?_, ?_, ?_⟩
  · intro n hn
    by_cases hs : csz.getD (cq.getD true) = true
    · rw [if_pos hs]
      simp only [List.mem_cons, List.not_mem_nil, or_false] at hn
      unfold twoQN
      rw [if_pos hs]
      rcases hn with rfl | rfl | rfl | rfl | rfl <;>
        exact op_throw rfl List.mem_cons_self (List.mem_cons_of_mem _ List.mem_cons_self) (by decide)
    · rw [if_neg hs]
      unfold twoQN
      rw [if_neg hs]
      exact names_ok (qs := []) (by rfl) (by rintro q' ⟨⟩) n hn
  all_goals elements [twoOp, single_apply]

/-- The operator "S2" of a spin 2 is not S(S+1): without quantum numbers the lowest state is sent to the one above it, and
with quantum numbers the call throws. -/
theorem C80_s2_counterexample : (∃ M, op 5 none twoOp "S2" = .ok M ∧ M 4 4 = 0 ∧ M 3 4 = 6 ∧
    M ≠ (2 * (2 + 1) : ℂ) • 1) ∧ op 5 (twoQN none none) twoOp "S2" = .throw := by
  constructor
  · have h44 : tabMat 5 twoOp "S2" 4 4 = 0 := by simp [tabMat, mat_apply, twoOp]
    refine ⟨_, tab_ok rfl, h44, by simp [tabMat, mat_apply, twoOp], fun h => ?_⟩
    have := congrFun (congrFun h 4) 4
    rw [h44] at this
    norm_num at this
  · exact op_throw (q := ⟨[1], vals [[4], [2], [0], [-2], [-4]]⟩) (p := (1, 1, 6)) (p' := (5, 4, 6)) rfl
      (by simp) (by simp) (by decide)

/-- Named states have the value of Sz that the quantum number says, twice Sz. -/
theorem C80_states : (∀ n k, halfState n = .ok k → ∃ (i : Fin 2) (M : _) (v : Int), k = i.val + 1 ∧
      op 2 (halfQN none none none) halfOp "Sz" = .ok M ∧
      halfQN none none none = some ⟨[1], vals [[1], [-1]]⟩ ∧ vals [[1], [-1]] k = [v] ∧ 2 * M i i = v ∧
      ((n = "Up" ∧ v = 1) ∨ (n = "Dn" ∧ v = -1))) ∧
    (∀ n k, oneState n = .ok k → ∃ (i : Fin 3) (M : _) (v : Int), k = i.val + 1 ∧
      op 3 (oneQN none none) oneOp "Sz" = .ok M ∧
      oneQN none none = some ⟨[1], vals [[2], [0], [-2]]⟩ ∧ vals [[2], [0], [-2]] k = [v] ∧ 2 * M i i = v ∧
      ((n ∈ ["Up", "+"] ∧ v = 2) ∨ (n ∈ ["Z0", "0"] ∧ v = 0) ∨ (n ∈ ["Dn", "-"] ∧ v = -2))) ∧
    (∀ n k, twoState n = .ok k → ∃ (i : Fin 5) (M : _) (v : Int), k = i.val + 1 ∧
      op 5 (twoQN none none) twoOp "Sz" = .ok M ∧
      twoQN none none = some ⟨[1], vals [[4], [2], [0], [-2], [-4]]⟩ ∧ vals [[4], [2], [0], [-2], [-4]] k = [v] ∧
      2 * M i i = v ∧ ((n ∈ ["Up", "4"] ∧ v = 4) ∨ (n ∈ ["Upi", "2"] ∧ v = 2) ∨ (n ∈ ["Z0", "0"] ∧ v = 0) ∨
        (n ∈ ["Dni", "-2"] ∧ v = -2) ∨ (n ∈ ["Dn", "-4"] ∧ v = -4))) := by
  refine ⟨?_, ?_, ?_⟩ <;> intro n k h
  · have hM : op 2 (halfQN none none none) halfOp "Sz" = .ok (tabMat 2 halfOp "Sz") :=
      names_ok (names := ["Sz"]) (by rfl) (half_qn none none none) _ (by simp)
    unfold halfState at h
    split_ifs at h with h1 h2 <;> cases h
    · exact ⟨0, _, 1, rfl, hM, rfl, rfl, by simp [tabMat, mat_apply, halfOp], by simp [h1]⟩
    · exact ⟨1, _, -1, rfl, hM, rfl, rfl, by simp [tabMat, mat_apply, halfOp]; ring, by simp [h2]⟩
  · have hM : op 3 (oneQN none none) oneOp "Sz" = .ok (tabMat 3 oneOp "Sz") :=
      names_ok (names := ["Sz"]) (by rfl) (one_qn none none) _ (by simp)
    unfold oneState at h
    split_ifs at h with h1 h2 h3 <;> cases h
    · exact ⟨0, _, 2, rfl, hM, rfl, rfl, by simp [tabMat, mat_apply, oneOp], by simpa using h1⟩
    · exact ⟨1, _, 0, rfl, hM, rfl, rfl, by simp [tabMat, mat_apply, oneOp], by simpa using h2⟩
    · exact ⟨2, _, -2, rfl, hM, rfl, rfl, by simp [tabMat, mat_apply, oneOp], by simpa using h3⟩
  · have hM : op 5 (twoQN none none) twoOp "Sz" = .ok (tabMat 5 twoOp "Sz") :=
      names_ok (names := ["Sz"]) (by rfl) (two_qn none none) _ (by simp)
    unfold twoState at h
    split_ifs at h with h1 h2 h3 h4 h5 <;> cases h
    · exact ⟨0, _, 4, rfl, hM, rfl, rfl, by simp [tabMat, mat_apply, twoOp]; ring, by simpa using h1⟩
    · exact ⟨1, _, 2, rfl, hM, rfl, rfl, by simp [tabMat, mat_apply, twoOp], by simpa using h2⟩
    · exact ⟨2, _, 0, rfl, hM, rfl, rfl, by simp [tabMat, mat_apply, twoOp], by simpa using h3⟩
    · exact ⟨3, _, -2, rfl, hM, rfl, rfl, by simp [tabMat, mat_apply, twoOp], by simpa using h4⟩
    · exact ⟨4, _, -4, rfl, hM, rfl, rfl, by simp [tabMat, mat_apply, twoOp]; ring, by simpa using h5⟩

end Verif.Sites
