import Mathlib.Tactic.FinCases
import Verif.AutoMPO.ExactProps
import Verif.AutoMPO.JW

/-!
# The fermionic sites of the library, and the exact conversion (C51)
-/

namespace Verif.AutoMPO

/-- The kinds of sites with fermions. -/
inductive Kind
  | fermion
  | electron
  | tJ
  deriving DecidableEq

/-- The dimension of the site index (sites/fermion.h:48, sites/electron.h:78, sites/tj.h:71). -/
def Kind.dim : Kind → Nat
  | .fermion => 2
  | .electron => 4
  | .tJ => 3

/-- The operators of a site. -/
def Kind.site : (k : Kind) → Name → Option (Matrix (Fin k.dim) (Fin k.dim) ℚ)
  | .fermion => fermionSite
  | .electron => electronSite
  | .tJ => tJSite

/-- `SiteSet::op` for a chain of sites of any of the three kinds. -/
def chainOps {N : Nat} (kind : Fin N → Kind) (a : Name) (n : Fin N) :
    Option (Matrix (Fin (kind n).dim) (Fin (kind n).dim) ℚ) := siteOp (kind n).site a

/-- The operators without fermionic strings, which change the number of particles but have names which do not start with
`C`: hard-core bosons. -/
def hardCore : List Name := [nA, nAdag, nAup, nAdagup, nAdn, nAdagdn]

/-- The name is of one operator, not of a product, and not of a hard-core boson. -/
def Simple (a : Name) : Prop := '*' ∉ a ∧ a ∉ hardCore

instance : DecidablePred Simple := fun a => inferInstanceAs (Decidable ('*' ∉ a ∧ a ∉ hardCore))

theorem siteOp_simple {R : Type*} [Ring R] (base : Name → Option R) {a : Name} (h : Simple a) :
    siteOp base a = if a = nId then some 1 else if a = nF then some ((base a).getD 1) else base a := by
  have h' : '*' ∉ a := h.1
  simp [siteOp, siteOpF, h']

theorem lookup_mem {d : Nat} {tab : List (Name × List (Nat × Nat × ℚ))} {a : Name} {x : Matrix (Fin d) (Fin d) ℚ}
    (h : lookup d tab a = some x) : ∃ p ∈ tab, p.1 = a ∧ setCalls d p.2 = x := by
  rw [lookup, Option.map_eq_some_iff] at h
  obtain ⟨p, hp, rfl⟩ := h
  exact ⟨p, List.mem_of_find?_eq_some hp, by simpa using List.find?_some hp, rfl⟩

/-- The operator `F` of a site. -/
def Kind.F (k : Kind) : Matrix (Fin k.dim) (Fin k.dim) ℚ := (k.site nF).getD 1

theorem lookup_signs {d : Nat} {tab : List (Name × List (Nat × Nat × ℚ))} (F : Matrix (Fin d) (Fin d) ℚ)
    (h : ∀ p ∈ tab, p.1 ∉ hardCore → F * setCalls d p.2 = if fermiName p.1 then -(setCalls d p.2 * F) else setCalls d p.2 * F)
    (a : Name) (x : Matrix (Fin d) (Fin d) ℚ) (ha : a ∉ hardCore) (hx : lookup d tab a = some x) :
    F * x = if fermiName a then -(x * F) else x * F := by
  obtain ⟨p, hp, rfl, rfl⟩ := lookup_mem hx
  exact h p hp ha

theorem site_signs : (k : Kind) → (a : Name) → (x : Matrix (Fin k.dim) (Fin k.dim) ℚ) →
    a ∉ hardCore → k.site a = some x →
    k.F * x = if fermiName a then -(x * k.F) else x * k.F
  | .fermion => lookup_signs (d := 2) ((fermionSite nF).getD 1) (by decide +kernel)
  | .electron => lookup_signs (d := 4) ((electronSite nF).getD 1) (by decide +kernel)
  | .tJ => lookup_signs (d := 3) ((tJSite nF).getD 1) (by decide +kernel)

theorem F_F (k : Kind) : k.F * k.F = 1 := by cases k <;> decide +kernel

theorem site_F (k : Kind) : k.site nF = some k.F := by cases k <;> decide +kernel

theorem op_simple (k : Kind) {a : Name} (h : Simple a) : siteOp k.site a = if a = nId then some 1 else k.site a := by
  rw [siteOp_simple _ h]
  split
  · rfl
  · split
    · rename_i h
      rw [h, site_F]
      rfl
    · rfl

/-- The table of `fermionicTerm`. -/
theorem rewrite_mem {tab : List (Name × Name)} {a : Name} (h : ∀ p ∈ tab, p.1 ≠ a) : rewriteName tab a = a := by
  rw [rewriteName]
  split
  · rename_i p hp
    exact absurd (by simpa using List.find?_some hp) (h p (List.mem_of_find?_eq_some hp))
  · rfl

theorem site_rewrite (k : Kind) (a : Name) : siteOp k.site (fermionicTerm a) = siteOp k.site a := by
  by_cases h : a ∈ [nCdagup, nCup, nCdagdn, nCdn, nC, nCdag]
  · revert a
    cases k <;> decide +kernel
  · rw [fermionicTerm, rewrite_mem]
    simp only [List.mem_cons, List.not_mem_nil, or_false, not_or] at h
    intro p hp
    simp only [List.mem_cons, List.not_mem_nil, or_false] at hp
    rcases hp with rfl | rfl | rfl | rfl | rfl | rfl <;> exact fun e => by simp_all

/-- Chains of the fermionic sites of the library have operators with the required relations. -/
def chainFermi {N : Nat} (kind : Fin N → Kind) : Fermi (chainOps kind) Simple where
  F n := (kind n).F
  F_op n := by rw [chainOps, op_simple _ (by decide), if_neg (by decide), site_F]
  Id_op n := by rw [chainOps, op_simple _ (by decide), if_pos rfl]
  F_F n := AutoMPO.F_F _
  odd a n x ha hf h := by
    rw [chainOps, op_simple _ ha, if_neg] at h
    · simpa [hf] using site_signs (kind n) a x ha.2 h
    · rintro rfl
      exact absurd hf (by decide)
  even a n x ha hf h := by
    rw [chainOps, op_simple _ ha] at h
    split at h
    · injection h with h
      simp [← h]
    · simpa [hf] using site_signs (kind n) a x ha.2 h
  rewrite a n _ _ := site_rewrite _ _

/-- Two electrons and a spinless fermion: the local operators of a term with four operators, two of them on one site. -/
example : ∃ L : ∀ n : Fin 3, Matrix _ _ ℚ,
    (∀ n : Fin 3, ((onsiteOps ((n.val + 1 : Nat) : Int)
      (entered [(⟨nC, 3⟩, 2), (⟨nCdn, 1⟩, 1), (⟨nCdagup, 1⟩, 1), (⟨nCdagdn, 2⟩, (5 : ℚ))]).ops).bind
        (computeProd (at' (chainOps ![Kind.electron, Kind.electron, Kind.fermion]) n))) = .ok (L n)) ∧
    (entered [(⟨nC, 3⟩, 2), (⟨nCdn, 1⟩, 1), (⟨nCdagup, 1⟩, 1), (⟨nCdagdn, 2⟩, (5 : ℚ))]).coef • kron L =
      (10 : ℚ) • (jw (chainFermi ![.electron, .electron, .fermion]) nC 3 *
        (jw (chainFermi ![.electron, .electron, .fermion]) nCdn 1 *
          (jw (chainFermi ![.electron, .electron, .fermion]) nCdagup 1 *
            jw (chainFermi ![.electron, .electron, .fermion]) nCdagdn 2))) := by
  have := C51_entered (chainFermi ![.electron, .electron, .fermion])
    [(⟨nC, 3⟩, 2), (⟨nCdn, 1⟩, 1), (⟨nCdagup, 1⟩, 1), (⟨nCdagdn, 2⟩, (5 : ℚ))]
    (by decide +kernel) (by decide)
  simpa [show (2 : ℚ) * 5 = 10 by norm_num] using this

end Verif.AutoMPO
