import Mathlib.Data.Int.Basic
import Mathlib.Data.Fin.Basic
import Mathlib.LinearAlgebra.Matrix.Notation
import Verif.AutoMPO.Sites
import Verif.AutoMPO.TermsProps

/-!
# Cases of C48 and C49
-/

namespace Verif.AutoMPO

/-- Operators on the sites 1 and 2 with the required relations: those with names starting with `C` are two anticommuting
matrices, the others are the identity, and on other sites those with names starting with `C` are zero. -/
def exVal (a : Name) (i : Int) : Matrix (Fin 2) (Fin 2) ℤ :=
  if fermiName a then if i = 1 then !![0, 1; 1, 0] else if i = 2 then !![1, 0; 0, -1] else 0 else 1

theorem exVal_graded : Graded ℤ exVal := by
  intro a b i j hij
  have h : (!![0, 1; 1, 0] : Matrix (Fin 2) (Fin 2) ℤ) * !![1, 0; 0, -1] = -(!![1, 0; 0, -1] * !![0, 1; 1, 0]) := by
    decide +kernel
  have h' : (!![1, 0; 0, -1] : Matrix (Fin 2) (Fin 2) ℤ) * !![0, 1; 1, 0] = -(!![0, 1; 1, 0] * !![1, 0; 0, -1]) := by
    decide +kernel
  unfold exVal
  by_cases ha : fermiName a = true <;> by_cases hb : fermiName b = true <;> simp only [ha, hb] <;>
    by_cases i1 : i = 1 <;> by_cases j1 : j = 1 <;> by_cases i2 : i = 2 <;> by_cases j2 : j = 2 <;>
      first
      | omega
      | (simp [i1, i2, j1, j2]; done)
      | (simp only [i1, i2, j1, j2, if_true, if_false, and_self, neg_smul, one_smul]; first | exact h | exact h')




/-- Entering `C` on site 2, `Sz` on site 1 and `Cdag` on site 1 gives a sign, and the two operators on site 1 stay in
order. -/
example : entered [(⟨nC, 2⟩, 3), (⟨nSz, 1⟩, 5), (⟨nCdag, 1⟩, 1)] =
    (⟨-15, [⟨nSz, 1⟩, ⟨nCdag, 1⟩, ⟨nC, 2⟩]⟩ : HTerm ℤ) := by decide +kernel

/-- The product of `C48_entry_order` is not zero. -/
example : (entered [(⟨nC, 2⟩, 3), (⟨nSz, 1⟩, 5), (⟨nCdag, 1⟩, (1 : ℤ))]).coef •
      prodOps exVal (entered [(⟨nC, 2⟩, 3), (⟨nSz, 1⟩, 5), (⟨nCdag, 1⟩, (1 : ℤ))]).ops =
    (15 : ℤ) • (exVal nC 2 * exVal nSz 1 * exVal nCdag 1) ∧ exVal nC 2 * exVal nSz 1 * exVal nCdag 1 ≠ 0 := by
  refine ⟨?_, by decide +kernel⟩
  simpa [mul_assoc] using (C48_entry_order exVal exVal_graded [(⟨nC, 2⟩, 3), (⟨nSz, 1⟩, 5), (⟨nCdag, 1⟩, (1 : ℤ))]).1

/-- Three terms of which two have the same operators. -/
example : [⟨2, [⟨nC, 1⟩, ⟨nC, 2⟩]⟩, ⟨3, [⟨nSz, 1⟩]⟩, ⟨5, [⟨nC, 1⟩, ⟨nC, 2⟩]⟩].foldl add [] =
    ([⟨3, [⟨nSz, 1⟩]⟩, ⟨7, [⟨nC, 1⟩, ⟨nC, 2⟩]⟩] : List (HTerm ℤ)) := by decide +kernel

/-- The program `ampo += 2,"Cdag",1,"C",2; ampo += "C",2,3.0,"Cdag",1; ampo += "Sz",2;`, in which the second statement
has the operators of the first in the other order. -/
def exProg : List (List (Factor ℤ)) :=
  [[.int 2, .op nCdag 1, .op nC 2], [.op nC 2, .num 3, .op nCdag 1], [.op nSz 2]]

def exItems : List (Item ℤ × List (Item ℤ)) :=
  [(.int 2, [.str nCdag, .int 1, .str nC, .int 2]), (.str nC, [.int 2, .num 3, .str nCdag, .int 1]),
    (.str nSz, [.int 2])]

example : program exItems = .ok [⟨1, [⟨nSz, 2⟩]⟩, ⟨-1, [⟨nCdag, 1⟩, ⟨nC, 2⟩]⟩] := by decide +kernel

example : ∃ s, program exItems = .ok s ∧ (s.map fun t => t.coef • prodOps exVal t.ops).sum =
    (2 : ℤ) • (exVal nCdag 1 * exVal nC 2) + ((3 : ℤ) • (exVal nC 2 * exVal nCdag 1) + exVal nSz 2) := by
  obtain ⟨s, h1, h2, _⟩ := C49_program exVal exVal_graded exProg exItems rfl (by decide)
  refine ⟨s, h1, h2.trans ?_⟩
  simp [exProg, Factor.scalar, List.filterMap_cons, Factor.site]

/-- The statements `ampo += 2, 3.0;`, `ampo += "Sz", 1, "Sz";` and `ampo += "Sz", 2.0, "Sz", 1;`. -/
example : statement ([] : List (HTerm ℤ)) (.int 2) [.num 3] = .throw := C49_no_operator _ _ _ (by simp)

example : statement ([] : List (HTerm ℤ)) (.str nSz) [.int 1, .str nSz] = .throw :=
  C49_no_site _ _ _ [.str nSz, .int 1] [] nSz [] rfl (.inl rfl)

example : statement ([] : List (HTerm ℤ)) (.str nSz) [.num 2, .str nSz, .int 1] = .throw :=
  C49_no_site _ _ _ [] [.str nSz, .int 1] nSz [2] rfl (.inr ⟨_, _, rfl⟩)

end Verif.AutoMPO
