import Verif.AutoMPO.ToExpC81

/-!
# Cases of the exponential of a sum of terms (C81)
-/

namespace Verif.AutoMPO

/-- A term of one operator, two which overlap it or not, and a fermionic pair with a site between. -/
def expTerms (K : Type*) [CommRing K] : List (HTerm K) :=
  [⟨5, [⟨nN, 1⟩]⟩, ⟨7, [⟨nN, 2⟩, ⟨nN, 3⟩]⟩, ⟨2, [⟨nN, 4⟩]⟩, ⟨3, [⟨nCdag, 2⟩, ⟨nC, 4⟩]⟩]

theorem expTerms_good (K : Type*) [CommRing K] : ∀ t ∈ expTerms K, Good 4 t.ops := by
  intro t ht
  simp only [expTerms, List.mem_cons, List.not_mem_nil, or_false] at ht
  rcases ht with rfl | rfl | rfl | rfl
  · exact .inl ⟨_, rfl, by decide, by decide⟩
  · exact .inr ⟨_, _, rfl, by decide, by decide, by decide⟩
  · exact .inl ⟨_, rfl, by decide, by decide⟩
  · exact .inr ⟨_, _, rfl, by decide, by decide, by decide⟩

/-- The sets of terms without a common site: five of two terms or fewer, and one of three. -/
example (el : Name → Nat → ℚ) (tau : ℚ) : toExpH none el (expTerms ℚ) tau 4 (expBasis (expTerms ℚ)) =
    .ok (el nId 1 * el nId 2 * el nId 3 * el nId 4
      - tau * (5 * (el nN 1 * el nId 2 * el nId 3 * el nId 4) + 7 * (el nId 1 * el nN 2 * el nN 3 * el nId 4)
        + 2 * (el nId 1 * el nId 2 * el nId 3 * el nN 4) + 3 * (el nId 1 * el nAdag 2 * el nF 3 * el nA 4))
      + tau ^ 2 * (35 * (el nN 1 * el nN 2 * el nN 3 * el nId 4) + 10 * (el nN 1 * el nId 2 * el nId 3 * el nN 4)
        + 15 * (el nN 1 * el nAdag 2 * el nF 3 * el nA 4) + 14 * (el nId 1 * el nN 2 * el nN 3 * el nN 4))
      - tau ^ 3 * (70 * (el nN 1 * el nN 2 * el nN 3 * el nN 4))) := by
  have e1 : startTerm nN = nN := by decide
  have e2 : endTerm nN = nN := by decide
  have e3 : startTerm nCdag = nAdag := by decide
  have e4 : endTerm nC = nA := by decide
  have e5 : fermiName nN = false := by decide
  have e6 : fermiName nCdag = true := by decide
  have e7 : fermiName IL.op = false := by decide
  have b0 : expBasis (expTerms ℚ) 0 = [IL] := by decide
  have b1 : expBasis (expTerms ℚ) 1 = [IL] := by decide
  have b2 : expBasis (expTerms ℚ) 2 = [IL, ⟨nN, 2⟩, ⟨nCdag, 2⟩] := by decide
  have b3 : expBasis (expTerms ℚ) 3 = [IL, ⟨nCdag, 2⟩] := by decide
  have b4 : expBasis (expTerms ℚ) 4 = [IL] := by decide
  have c1 : (⟨nN, 2⟩ : SiteTerm) ≠ IL := by decide
  have c2 : (⟨nCdag, 2⟩ : SiteTerm) ≠ IL := by decide
  have c3 : nN ≠ nCdag := by decide
  have c4 : ∀ (a : Name) (k : Int), k ≠ 0 → ¬IL = ⟨a, k⟩ := by
    intro a k hk h
    rw [← show IL.i = 0 from rfl, h] at hk
    exact hk rfl
  rw [toExpH, Option.getD_none, if_pos rfl, expElement_eq _ _ _ _ _ (fun _ _ => .refl _) (expTerms_good ℚ)]
  have h := expProduct_eq (el := el) (tau := tau) (expTerms_good ℚ) (b := expBasis (expTerms ℚ)) (fun _ _ => .refl _) 4 (le_refl _)
  rw [b4] at h
  have h' : nonOverlap el (expTerms ℚ) tau 4 = (expProduct el (expTerms ℚ) tau (expBasis (expTerms ℚ)) 4).headD 0 := by
    rw [h]; simp [expVec]
  rw [h']
  simp only [expProduct, expVecMul, b0, b1, b2, b3, b4]
  simp [List.filter_cons, c4, expEntry, byN, expTerms, HTerm.first, HTerm.last, IL_i, c1, c2, c1.symm, c2.symm, c3, c3.symm, e1, e2, e3, e4, e5, e6, e7]
  ring

/-- The operators of a chain of spinless fermions. -/
def fermiOps (N : Nat) (a : Name) (_ : Fin N) : Matrix (Fin 2) (Fin 2) ℂ :=
  ((siteOp fermionSite a).getD 0).map fun q : ℚ => (q : ℂ)

example : ∃ U : ℂ → Matrix (Fin 4 → Fin 2) (Fin 4 → Fin 2) ℂ,
    (∀ tau s s', toExpH none (opElem (fermiOps 4) s s') (expTerms ℂ) tau 4 (expBasis (expTerms ℂ)) = .ok (U tau s s')) ∧
    ∀ s s', (fun tau => U tau s s' - NormedSpace.exp (-tau • sumMat (fermiOps 4) (expTerms ℂ)) s s')
      =O[nhds 0] fun tau : ℂ => tau ^ 2 := by
  obtain ⟨U, h1, h2, _⟩ := C81_order_partial (d := fun _ => 2) (fermiOps 4) (fun n => by
    have : siteOp fermionSite nId = some 1 := by simp [siteOp, siteOpF, nId]
    simp [fermiOps, this]) (expTerms ℂ) _ (fun _ _ => .refl _) (expTerms_good ℂ)
  exact ⟨U, h1, h2⟩

/-- **C81** fails for terms with two operators on one site: the second operator is lost, and the term is added twice, so
that the result differs from the exponential to first order. -/
theorem C81_on_site_counterexample :
    ∃ (el : Name → Nat → ℚ) (a b : Name), startTerm a = a ∧ endTerm b = b ∧ 2 * el a 1 ≠ el a 1 * el b 1 ∧
      ∀ tau : ℚ, toExpH none el [⟨1, [⟨a, 1⟩, ⟨b, 1⟩]⟩] tau 1 (expBasis [(⟨1, [⟨a, 1⟩, ⟨b, 1⟩]⟩ : HTerm ℚ)]) =
        .ok (el nId 1 - tau * (2 * el a 1)) := by
  refine ⟨occEl fun _ => 1, nN, nN, by decide, by decide, by decide +kernel, fun tau => ?_⟩
  have b0 : expBasis [(⟨1, [⟨nN, 1⟩, ⟨nN, 1⟩]⟩ : HTerm ℚ)] 0 = [IL] := by decide
  have b1 : expBasis [(⟨1, [⟨nN, 1⟩, ⟨nN, 1⟩]⟩ : HTerm ℚ)] 1 = [IL] := by decide
  have e7 : fermiName IL.op = false := by decide
  have c1 : (⟨nN, 1⟩ : SiteTerm) ≠ IL := by decide
  simp [toExpH, expElement, expProduct, expVecMul, b0, b1, expEntry, byN, HTerm.first, HTerm.last, IL_i, e7, c1.symm]
  ring

end Verif.AutoMPO
