import Verif.AutoMPO.ExactProps
import Verif.AutoMPO.JWExact

/-!
# Cases of the exact conversion (C50)
-/

namespace Verif.AutoMPO

/-- The elements of the operators of spinless fermions which are diagonal, for the occupations `occ`. -/
def occEl (occ : Nat → Fin 2) (a : Name) (n : Nat) : ℚ := ((siteOp fermionSite a).getD 0) (occ n) (occ n)

/-- Terms of one and two operators which share their first operator, and a fermionic pair with a site between. -/
def exTerms : List (HTerm ℚ) :=
  [⟨5, [⟨nN, 1⟩]⟩, ⟨7, [⟨nN, 1⟩, ⟨nN, 2⟩]⟩, ⟨2, [⟨nN, 1⟩, ⟨nN, 3⟩]⟩, ⟨3, [⟨nCdag, 1⟩, ⟨nC, 3⟩]⟩]

example (el : Name → Nat → ℚ) : exactElement el exTerms 3 (basis exTerms 3) =
    .ok (5 * (el nN 1 * el nId 2 * el nId 3) + 7 * (el nN 1 * el nN 2 * el nId 3) + 2 * (el nN 1 * el nId 2 * el nN 3) +
      3 * (el nAdag 1 * el nF 2 * el nA 3)) := by
  rw [C50_exact_noqn_partial el exTerms 3 (by decide)]
  · have e1 : startTerm nN = nN := by decide
    have e2 : endTerm nN = nN := by decide
    have e3 : startTerm nCdag = nAdag := by decide
    have e4 : endTerm nC = nA := by decide
    have e5 : fermiName nN = false := by decide
    have e6 : fermiName nCdag = true := by decide
    simp [exTerms, termSite, List.range_succ, e1, e2, e3, e4, e5, e6, mul_assoc, add_assoc]
  · intro t ht
    simp only [exTerms, List.mem_cons, List.not_mem_nil, or_false] at ht
    rcases ht with rfl | rfl | rfl | rfl
    · exact .inl ⟨_, rfl, by decide, by decide⟩
    all_goals exact .inr ⟨_, _, rfl, by decide, by decide, by decide⟩

/-- **C50** fails for terms with two operators on one site: the second operator is lost, and the term is added twice. -/
theorem C50_on_site_counterexample :
    ∃ (el : Name → Nat → ℚ) (a b : Name), startTerm a = a ∧ endTerm b = b ∧
      exactElement el [⟨1, [⟨a, 1⟩, ⟨b, 1⟩]⟩] 1 (basis [(⟨1, [⟨a, 1⟩, ⟨b, 1⟩]⟩ : HTerm ℚ)] 1) = .ok (2 * el a 1) ∧
      2 * el a 1 ≠ el a 1 * el b 1 :=
  ⟨occEl fun _ => 1, nN, nN, by decide, by decide, by decide +kernel, by decide +kernel⟩

/-- **C50** fails for an operator on site 0: it is accepted without an error and the term is lost. -/
theorem C50_site_zero_counterexample :
    ∃ (el : Name → Nat → ℚ) (terms : List (HTerm ℚ)), (∀ t ∈ terms, ∀ st ∈ t.ops, st.i = 0) ∧ terms ≠ [] ∧
      exactElement el terms 2 (basis terms 2) = .ok 0 :=
  ⟨occEl fun _ => 1, [⟨1, [⟨nN, 0⟩]⟩], by decide, by decide, by decide +kernel⟩

/-- **C50** fails for bases which the order of `std::sort` permits: if the operator `N` is sorted before `HL`, with which it
shares the quantum number zero, the result is this operator and not the sum of the terms. -/
theorem C50_sort_counterexample :
    ∃ (el : Name → Nat → ℚ) (terms : List (HTerm ℚ)) (b : Nat → List SiteTerm), Bases terms 1 b ∧
      (∀ n ≤ 1, (b n).Pairwise fun x y => qnComp (0 : Int) (fun p q => p < q) (fun _ => 0) y x = false) ∧
      (∀ t ∈ terms, Good 1 t.ops) ∧
      exactElement el terms 1 b ≠
        .ok (terms.map fun t => t.coef * ((List.range 1).map fun m => termSite el t.ops (m + 1)).prod).sum := by
  refine ⟨occEl fun _ => 1, [⟨5, [⟨nN, 1⟩]⟩], fun n => if n = 0 then [IL] else [⟨nN, 1⟩, HL], ?_, ?_, ?_, ?_⟩
  · unfold Bases
    decide
  · decide
  · intro t ht
    simp only [List.mem_singleton] at ht
    subst ht
    exact .inl ⟨_, rfl, by decide, by decide⟩
  · decide +kernel

end Verif.AutoMPO
