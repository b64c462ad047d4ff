import Mathlib.Algebra.BigOperators.Group.Finset.Basic
import Verif.AutoMPO.JWSites

/-!
# The exact conversion with fermions (C51)
-/

namespace Verif.AutoMPO

open Finset

variable {K : Type*} [CommRing K] {N : Nat} {D : Fin N → Nat}
variable {ops : Name → ∀ n : Fin N, Option (Matrix (Fin (D n)) (Fin (D n)) K)} {P : Name → Prop} [DecidablePred P]

/-- The element of the operator `a` on site `m` (from 1) for the values `s` of the primed site indices and `t` of the site
indices. -/
def element (ops : Name → ∀ n : Fin N, Option (Matrix (Fin (D n)) (Fin (D n)) K)) (s t : ∀ n, Fin (D n)) (a : Name)
    (m : Nat) : K :=
  if h : m - 1 < N then (ops a ⟨m - 1, h⟩).getD 0 (s ⟨m - 1, h⟩) (t ⟨m - 1, h⟩) else 0

theorem element_succ (s t : ∀ n, Fin (D n)) (a : Name) (n : Fin N) :
    element ops s t a (n.val + 1) = (ops a n).getD 0 (s n) (t n) := by
  simp [element]

theorem prodTo_fin (f : Nat → K) : prodTo f N = ∏ n : Fin N, f (n.val + 1) := by
  rw [prodTo, Fin.prod_univ_def, ← List.map_coe_finRange_eq_range, List.map_map]
  rfl

/-- The terms for which the exact conversion has the right signs: a single operator which is not fermionic, two operators
which are not fermionic, and two fermionic operators such that the starting and the ending operator are the operators
before and after the string up to the same sign. -/
def RightSigns (A : Fermi ops P) (l : List SiteTerm) : Prop :=
  (∀ st ∈ l, P st.op) ∧
  ((∃ a, l = [a] ∧ fermiName a.op = false) ∨
   (∃ a b, l = [a, b] ∧ fermiName a.op = false ∧ fermiName b.op = false) ∨
   ∃ a b, l = [a, b] ∧ fermiName a.op = true ∧ fermiName b.op = true ∧ ∃ e : K, e * e = 1 ∧
     (∀ n : Fin N, ((n.val + 1 : Nat) : Int) = a.i → (ops (startTerm a.op) n).getD 0 = e • ((ops a.op n).getD 0 * A.F n)) ∧
     ∀ n : Fin N, ((n.val + 1 : Nat) : Int) = b.i → (ops (endTerm b.op) n).getD 0 = e • (ops b.op n).getD 0)

theorem rewrite_not_fermi {tab : List (Name × Name)} (h : ∀ p ∈ tab, fermiName p.1 = true) {a : Name}
    (ha : fermiName a = false) : rewriteName tab a = a :=
  rewrite_mem fun p hp e => by rw [← e, h p hp] at ha; exact absurd ha (by simp)

theorem startTerm_not_fermi {a : Name} (ha : fermiName a = false) : startTerm a = a :=
  rewrite_not_fermi (by decide) ha

theorem endTerm_not_fermi {a : Name} (ha : fermiName a = false) : endTerm a = a :=
  rewrite_not_fermi (by decide) ha

theorem term_jw (A : Fermi ops P) (s t : ∀ n, Fin (D n)) (l : List SiteTerm) (hg : Good N l) (hr : RightSigns A l) :
    prodTo (termSite (element ops s t) l) N = prodOps (jw A) l s t := by
  have hl : ∀ st ∈ l, P st.op ∧ 1 ≤ st.i ∧ st.i ≤ N := by
    intro st hst
    refine ⟨hr.1 st hst, ?_⟩
    rcases hg with ⟨a, rfl, h⟩ | ⟨a, b, rfl, h⟩
    · simp only [List.mem_singleton] at hst
      subst hst
      exact h
    · simp only [List.mem_cons, List.not_mem_nil, or_false] at hst
      rcases hst with rfl | rfl <;> omega
  rw [prodOps_jw A l hl, prodTo_fin, kron, Matrix.of_apply]
  have hId : ∀ n : Fin N, (ops nId n).getD 0 = 1 := fun n => by rw [A.Id_op]; rfl
  have hF : ∀ n : Fin N, (ops nF n).getD 0 = A.F n := fun n => by rw [A.F_op]; rfl
  rcases hr.2 with ⟨a, rfl, ha⟩ | ⟨a, b, rfl, ha, hb⟩ | ⟨a, b, rfl, ha, hb, e, he, h1, h2⟩
  · refine Finset.prod_congr rfl fun n _ => ?_
    simp only [termSite, element_succ, List.map_cons, List.map_nil, List.prod_singleton, jwSite, ha, hId]
    rcases lt_trichotomy ((n.val + 1 : Nat) : Int) a.i with h | h | h
    · rw [if_neg (by omega), if_pos h]
      simp
    · rw [if_pos h.symm, if_neg (by omega), if_pos h]
    · rw [if_neg (by omega), if_neg (by omega), if_neg (by omega)]
  · have hab : a.i < b.i := by
      rcases hg with ⟨c, h, _⟩ | ⟨c, d, h, _, h', _⟩
      · simp at h
      · simp at h; obtain ⟨rfl, rfl⟩ := h; exact h'
    refine Finset.prod_congr rfl fun n _ => ?_
    simp only [termSite, element_succ, List.map_cons, List.map_nil, List.prod_cons, List.prod_nil, mul_one, jwSite, ha, hb,
      hId, startTerm_not_fermi ha, endTerm_not_fermi hb, Bool.false_eq_true, false_and, if_false]
    by_cases h : a.i = ((n.val + 1 : Nat) : Int)
    · rw [if_pos h, if_neg (by omega), if_pos h.symm, if_pos (by omega), mul_one]
    · rw [if_neg h]
      have e1 : ((n.val + 1 : Nat) : Int) ≠ a.i := fun h' => h h'.symm
      by_cases h' : b.i = ((n.val + 1 : Nat) : Int)
      · rw [if_pos h', if_neg (by omega), if_neg (by omega), if_neg (by omega), if_pos h'.symm, one_mul]
      · have e2 : ((n.val + 1 : Nat) : Int) ≠ b.i := fun h'' => h' h''.symm
        simp only [if_neg h', if_neg e1, if_neg e2, ite_self, mul_one]
  · have hab : a.i < b.i ∧ 1 ≤ a.i ∧ b.i ≤ N := by
      rcases hg with ⟨c, h, _⟩ | ⟨c, d, h, h', h'', h'''⟩
      · simp at h
      · simp at h; obtain ⟨rfl, rfl⟩ := h; exact ⟨h'', h', h'''⟩
    -- the sign on each of the two sites
    have key : ∀ n : Fin N, termSite (element ops s t) [a, b] (n.val + 1) =
        (if ((n.val + 1 : Nat) : Int) = a.i then e else 1) * (if ((n.val + 1 : Nat) : Int) = b.i then e else 1) *
          (([a, b].map fun u => jwSite A u.op u.i n).prod) (s n) (t n) := by
      intro n
      simp only [termSite, element_succ, List.map_cons, List.map_nil, List.prod_cons, List.prod_nil, mul_one, jwSite, ha, hb,
        hId, hF, if_true, true_and]
      generalize hm : ((n.val + 1 : Nat) : Int) = m at h1 h2 ⊢
      rcases lt_trichotomy m a.i with h | h | h
      · have f1 : ¬a.i = m := by omega
        have f2 : ¬b.i = m := by omega
        have f3 : ¬a.i < m := by omega
        have f4 : ¬m = a.i := by omega
        have f5 : ¬m = b.i := by omega
        have f6 : m < b.i := by omega
        simp only [f1, f2, f3, f4, f5, f6, h, false_and, if_false, if_true, A.F_F, mul_one, one_mul]
      · have f5 : ¬m = b.i := by omega
        have f6 : m < b.i := by omega
        simp only [h.symm, f5, f6, if_false, if_true, lt_irrefl, mul_one, h1 n (hm.trans h)]
        simp
      · have f1 : ¬a.i = m := by omega
        have f3 : ¬m < a.i := by omega
        have f4 : ¬m = a.i := by omega
        rcases lt_trichotomy m b.i with h' | h' | h'
        · have f2 : ¬b.i = m := by omega
          have f5 : ¬m = b.i := by omega
          simp only [f1, f2, f3, f4, f5, h, h', and_self, if_false, if_true, mul_one, one_mul]
        · have f4' : ¬b.i = a.i := by omega
          have f3' : ¬b.i < a.i := by omega
          have f1' : ¬a.i = b.i := by omega
          simp only [h', f1', f3', f4', lt_irrefl, if_false, if_true, one_mul, h2 n (hm.trans h')]
          simp
        · have f2 : ¬b.i = m := by omega
          have f5 : ¬m = b.i := by omega
          have f6 : ¬m < b.i := by omega
          simp only [f1, f2, f3, f4, f5, f6, and_false, if_false, mul_one, one_mul]
    rw [Finset.prod_congr rfl fun n _ => key n, Finset.prod_mul_distrib, Finset.prod_mul_distrib]
    have one : ∀ i : Int, 1 ≤ i → i ≤ N → (∏ n : Fin N, if ((n.val + 1 : Nat) : Int) = i then e else 1) = e := by
      intro i h1 h2
      have hk : i.toNat - 1 < N := by omega
      rw [Finset.prod_eq_single (⟨i.toNat - 1, hk⟩ : Fin N)]
      · rw [if_pos]
        simp only
        omega
      · intro n _ hn
        rw [if_neg]
        intro h
        exact hn (Fin.ext (by simp only; omega))
      · simp
    rw [one a.i (by omega) (by omega), one b.i (by omega) (by omega), he, one_mul]

/-- **C51** for the exact conversion: If the signs are right for each term, the matrix product operator is the sum of the
products of the operators of the terms.

Missing: pairs of fermionic operators with different signs (`C51_exact_counterexample`), and what C50 misses. -/
theorem C51_exact_partial (A : Fermi ops P) (terms : List (HTerm K)) (hN : 1 ≤ N) (b : Nat → List SiteTerm)
    (hb : Bases terms N b) (hHL : (b N).head? = some HL) (hg : ∀ t ∈ terms, Good N t.ops ∧ RightSigns A t.ops)
    (s t : ∀ n, Fin (D n)) :
    exactElement (element ops s t) terms N b =
      .ok ((terms.map fun u => u.coef • (u.ops.map fun st => jw A st.op st.i).prod).sum s t) := by
  rw [C50_exact_partial _ terms N hN b hb hHL fun t ht => (hg t ht).1]
  congr 1
  have : ∀ l : List (HTerm K), (∀ u ∈ l, Good N u.ops ∧ RightSigns A u.ops) →
      (l.map fun u => u.coef * ((List.range N).map fun m => termSite (element ops s t) u.ops (m + 1)).prod).sum =
        (l.map fun u => u.coef • (u.ops.map fun st => jw A st.op st.i).prod).sum s t := by
    intro l
    induction l with
    | nil => simp
    | cons u l ih =>
      intro h
      rw [List.map_cons, List.sum_cons, ih fun v hv => h v (by simp [hv]), List.map_cons, List.sum_cons, Matrix.add_apply,
        Matrix.smul_apply, smul_eq_mul]
      congr 2
      exact term_jw A s t u.ops (h u (by simp)).1 (h u (by simp)).2
  exact this terms hg

/-- **C50** and **C51** from the statements of a program on: what is converted is the sum of the entered products, with their
operators in the order of entry.

Missing: what `C51_exact_partial` misses. -/
theorem C50_program_partial [DecidableEq K] (A : Fermi ops P) (prog : List (List (Factor K)))
    (items : List (Item K × List (Item K)))
    (hi : prog.map (·.flatMap Factor.items) = items.map fun x => x.1 :: x.2)
    (hp : ∀ fs ∈ prog, fs.filterMap Factor.site ≠ []) (hN : 1 ≤ N) :
    ∃ terms, program items = .ok terms ∧
      ∀ b : Nat → List SiteTerm, Bases terms N b → (b N).head? = some HL →
        (∀ t ∈ terms, Good N t.ops ∧ RightSigns A t.ops) → ∀ s t : ∀ n, Fin (D n),
        exactElement (element ops s t) terms N b =
          .ok ((prog.map fun fs => (fs.map Factor.scalar).prod •
            ((fs.filterMap Factor.site).map fun u => jw A u.op u.i).prod).sum s t) := by
  obtain ⟨terms, h1, h2, _⟩ := C49_program (jw A) (jw_graded A) prog items hi hp
  refine ⟨terms, h1, fun b hb hHL hg s t => ?_⟩
  rw [C51_exact_partial A terms hN b hb hHL hg s t, ← h2]
  rfl

/-- The sign of an operator which starts a term in the exact conversion, for the operators of the library. -/
def startSign (a : Name) : ℚ := if a = nCdn then -1 else 1

/-- The sign of an operator which ends a term in the exact conversion, for the operators of the library. -/
def endSign (b : Name) : ℚ := if b = nCdagdn then -1 else 1

/-- The names of the operators of fermions. -/
def fermiNames : List Name := [nC, nCdag, nCup, nCdagup, nCdn, nCdagdn]

theorem start_sign (k : Kind) : ∀ a ∈ fermiNames, (siteOp k.site a).isSome →
    (siteOp k.site (startTerm a)).getD 0 = startSign a • ((siteOp k.site a).getD 0 * k.F) := by
  cases k <;> decide +kernel

theorem end_sign (k : Kind) : ∀ b ∈ fermiNames, (siteOp k.site b).isSome →
    (siteOp k.site (endTerm b)).getD 0 = endSign b • (siteOp k.site b).getD 0 := by
  cases k <;> decide +kernel

/-- A term of one or two operators which are not fermionic, or of two which are and of which the first is `Cdn` if and only
if the second is `Cdagdn`. -/
def RightNames {N : Nat} (kind : Fin N → Kind) (l : List SiteTerm) : Prop :=
  (∀ st ∈ l, Simple st.op) ∧
  ((∃ a, l = [a] ∧ fermiName a.op = false) ∨
   (∃ a b, l = [a, b] ∧ fermiName a.op = false ∧ fermiName b.op = false) ∨
   ∃ a b, l = [a, b] ∧ a.op ∈ fermiNames ∧ b.op ∈ fermiNames ∧ (a.op = nCdn ↔ b.op = nCdagdn) ∧
     ∀ n : Fin N, (((n.val + 1 : Nat) : Int) = a.i → (chainOps kind a.op n).isSome) ∧
       (((n.val + 1 : Nat) : Int) = b.i → (chainOps kind b.op n).isSome))

theorem RightNames.signs {N : Nat} {kind : Fin N → Kind} {l : List SiteTerm} (h : RightNames kind l) :
    RightSigns (chainFermi kind) l := by
  refine ⟨h.1, ?_⟩
  rcases h.2 with ⟨a, e, ha⟩ | ⟨a, b, e, ha, hb⟩ | ⟨a, b, e, ha, hb, hs, hx⟩
  · exact .inl ⟨a, e, ha⟩
  · exact .inr (.inl ⟨a, b, e, ha, hb⟩)
  · have hf : ∀ c ∈ fermiNames, fermiName c = true := by decide
    refine .inr (.inr ⟨a, b, e, hf _ ha, hf _ hb, startSign a.op, ?_, fun n hn => ?_, fun n hn => ?_⟩)
    · unfold startSign
      split <;> norm_num
    · exact start_sign (kind n) a.op ha ((hx n).1 hn)
    · have : startSign a.op = endSign b.op := by
        unfold startSign endSign
        by_cases h1 : a.op = nCdn
        · rw [if_pos h1, if_pos (hs.1 h1)]
        · rw [if_neg h1, if_neg fun h2 => h1 (hs.2 h2)]
      rw [this]
      exact end_sign (kind n) b.op hb ((hx n).2 hn)

/-- **C51** for the exact conversion and chains of the fermionic sites of the library.

Missing: other pairs of fermionic operators (`C51_exact_counterexample`), and what C50 misses. -/
theorem C51_exact_chain_partial {N : Nat} (kind : Fin N → Kind) (terms : List (HTerm ℚ)) (hN : 1 ≤ N)
    (b : Nat → List SiteTerm) (hb : Bases terms N b) (hHL : (b N).head? = some HL)
    (hg : ∀ t ∈ terms, Good N t.ops ∧ RightNames kind t.ops) (s t : ∀ n, Fin (kind n).dim) :
    exactElement (element (chainOps kind) s t) terms N b =
      .ok ((terms.map fun u => u.coef • (u.ops.map fun st => jw (chainFermi kind) st.op st.i).prod).sum s t) :=
  C51_exact_partial (chainFermi kind) terms hN b hb hHL (fun t ht => ⟨(hg t ht).1, (hg t ht).2.signs⟩) s t

/-- A chain of two electron sites. -/
def electrons2 : Fin 2 → Kind := fun _ => .electron

/-- Values of the two site indices. -/
def state2 (x y : Fin 4) : ∀ n, Fin (electrons2 n).dim := fun n => if n = 0 then x else y

/-- Hopping with both spins and an interaction, as in the Hubbard model. -/
example (s t : ∀ n, Fin (electrons2 n).dim) :
    let terms : List (HTerm ℚ) := [⟨4, [⟨nNupdn, 1⟩]⟩, ⟨-1, [⟨nCdagdn, 1⟩, ⟨nCdn, 2⟩]⟩, ⟨1, [⟨nCdn, 1⟩, ⟨nCdagdn, 2⟩]⟩,
      ⟨-1, [⟨nCdagup, 1⟩, ⟨nCup, 2⟩]⟩, ⟨1, [⟨nCup, 1⟩, ⟨nCdagup, 2⟩]⟩]
    exactElement (element (chainOps electrons2) s t) terms 2 (basis terms 2) =
      .ok ((terms.map fun u => u.coef • (u.ops.map fun st => jw (chainFermi electrons2) st.op st.i).prod).sum s t) := by
  intro terms
  refine C51_exact_chain_partial electrons2 terms (by decide) _ (fun _ _ => .refl _) (by decide) ?_ s t
  intro u hu
  simp only [terms, List.mem_cons, List.not_mem_nil, or_false] at hu
  rcases hu with rfl | rfl | rfl | rfl | rfl
  · exact ⟨.inl ⟨_, rfl, by decide, by decide⟩, by decide, .inl ⟨_, rfl, by decide⟩⟩
  all_goals
    refine ⟨.inr ⟨_, _, rfl, by decide, by decide, by decide⟩, by decide, .inr (.inr ⟨_, _, rfl, by decide, by decide,
      by decide, ?_⟩)⟩
    decide +kernel

/-- Two statements of a program, `+= -1,"Cup",2,"Cdagup",1` and `+= 2,"Nup",1,"Ntot",2`. -/
example (s t : ∀ n, Fin (electrons2 n).dim) :
    let A := chainFermi electrons2
    ∃ terms, program [(.num (-1 : ℚ), [.str nCup, .int 2, .str nCdagup, .int 1]),
        (.num 2, [.str nNup, .int 1, .str nNtot, .int 2])] = .ok terms ∧
      exactElement (element (chainOps electrons2) s t) terms 2 (basis terms 2) =
        .ok (((-1 : ℚ) • (jw A nCup 2 * jw A nCdagup 1) + (2 : ℚ) • (jw A nNup 1 * jw A nNtot 2)) s t) := by
  intro A
  obtain ⟨terms, h1, h2⟩ := C50_program_partial A
    [[.num (-1), .op nCup 2, .op nCdagup 1], [.num 2, .op nNup 1, .op nNtot 2]]
    [(.num (-1 : ℚ), [.str nCup, .int 2, .str nCdagup, .int 1]), (.num 2, [.str nNup, .int 1, .str nNtot, .int 2])]
    rfl (by decide) (by decide)
  refine ⟨terms, h1, ?_⟩
  have hv : program [(.num (-1 : ℚ), [.str nCup, .int 2, .str nCdagup, .int 1]),
      (.num 2, [.str nNup, .int 1, .str nNtot, .int 2])] =
      .ok [⟨1, [⟨nCdagup, 1⟩, ⟨nCup, 2⟩]⟩, ⟨2, [⟨nNup, 1⟩, ⟨nNtot, 2⟩]⟩] := by decide +kernel
  rw [hv] at h1
  obtain rfl := Res.ok.inj h1
  have := h2 (basis [⟨1, [⟨nCdagup, 1⟩, ⟨nCup, 2⟩]⟩, ⟨2, [⟨nNup, 1⟩, ⟨nNtot, 2⟩]⟩] 2) (fun _ _ => .refl _) (by decide) (by
    intro u hu
    simp only [List.mem_cons, List.not_mem_nil, or_false] at hu
    rcases hu with rfl | rfl
    · refine ⟨.inr ⟨_, _, rfl, by decide, by decide, by decide⟩, RightNames.signs ⟨by decide, .inr (.inr ⟨_, _, rfl,
        by decide, by decide, by decide, ?_⟩)⟩⟩
      decide +kernel
    · exact ⟨.inr ⟨_, _, rfl, by decide, by decide, by decide⟩, RightNames.signs ⟨by decide, .inr (.inl ⟨_, _, rfl,
        by decide, by decide⟩)⟩⟩) s t
  rw [this]
  simp only [Factor.scalar, Factor.site, List.map_cons, List.map_nil, List.prod_cons, List.prod_nil, List.sum_cons,
    List.sum_nil, List.filterMap_cons, List.filterMap_nil, mul_one, add_zero]

/-- **C51** fails for the exact conversion: for two electron sites, `Cup_1 Cdagdn_2` gets the wrong sign. -/
theorem C51_exact_counterexample :
    ∃ s t : ∀ n, Fin (electrons2 n).dim, ∃ terms : List (HTerm ℚ), ∃ x : ℚ, x ≠ 0 ∧
      (terms.map fun u => u.coef • (u.ops.map fun st => jw (chainFermi electrons2) st.op st.i).prod).sum s t = x ∧
      exactElement (element (chainOps electrons2) s t) terms 2 (basis terms 2) = .ok (-x) := by
  refine ⟨state2 0 2, state2 1 0, [⟨1, [⟨nCup, 1⟩, ⟨nCdagdn, 2⟩]⟩], _, ?_, rfl, ?_⟩
  · decide +kernel
  · decide +kernel

end Verif.AutoMPO
